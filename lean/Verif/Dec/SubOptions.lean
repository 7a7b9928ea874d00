import Verif.Bab.Options
import Verif.Dec.IfpConvex
/-!
# C316: the options of the OA decomposition and of the feasibility pump for MINLP

`src/Algorithms/OaGenerators/BonFpForMinlp.cpp`: constructor (29-46); `src/Algorithms/OaGenerators/BonOACutGenerator2.cpp`: constructor (30-46).  The presets of the algorithms
(`src/Algorithms/BonBonminSetup.cpp:645-699`) are those of `Bab/Options.lean`, with its model of the options list of Ipopt.

Time limits are integers as there; the limit on local searches, `INT_MAX`, is not an option.
-/
namespace Verif.Dec.SubOptions
open Verif.Bab.Options

/-- The prefix under which a generator reads its options (BonFpForMinlp.cpp:33-35, BonOACutGenerator2.cpp:34-36); `sub` is `pump_for_minlp.` or `oa_decomposition.`. -/
def subPrefix (pfx sub : String) : String := short pfx ++ sub

/-- `maxLocalSearchTime_` and `maxSols_`. -/
structure Limits where
  time : ℤ
  sols : ℤ
deriving DecidableEq

/-- The limits (BonFpForMinlp.cpp:37-44, BonOACutGenerator2.cpp:38-45); `MaxTime` and `MaxSolutions` are read in BonBabSetupBase.cpp:361-373. -/
def limits (d : String → ℤ) (o : Opts) (pfx sub : String) : Limits :=
  let own := (get d o (subPrefix pfx sub) "solution_limit").2
  let all := (get d o pfx "solution_limit").2
  ⟨min (get d o pfx "time_limit").2 (get d o (subPrefix pfx sub) "time_limit").2, if own > all then all else own⟩

/-- `passBound_` of the pump (BonFpForMinlp.cpp:45). -/
def passBound (d : String → ℤ) (o : Opts) (pfx : String) : ℤ := (get d o (subPrefix pfx "pump_for_minlp.") "fp_pass_infeasible").2

/-- The options as the generators find them: after the presets (BonBonminSetup.cpp:645-699). -/
def ready (m : ℤ) (a : Alg) (o : Opts) (pfx : String) : Opts := applyPresets o (presets m pfx a)

/-! ## Specification -/

/-- The limits an algorithm has for a generator of its own (documentation: B-Hyb gives the pump 10 seconds and 3 solutions, B-OA and B-iFP no time limit). -/
def own (m : ℤ) : Alg → String → String → Option ℤ
  | .hyb, "pump_for_minlp.", "time_limit" => some 10
  | .hyb, "pump_for_minlp.", "solution_limit" => some 3
  | .oa, "oa_decomposition.", "time_limit" => some m
  | .ifp, "pump_for_minlp.", "time_limit" => some m
  | _, _, _ => none

/-- The value wanted for an option of a generator: the one the user has locked (all settings of `bonmin.opt` are), else the one of the algorithm, else the one the user has given, else the default. -/
def Wanted (d : String → ℤ) (m : ℤ) (a : Alg) (o : Opts) (pfx sub tag : String) : ℤ :=
  match find o (short pfx ++ sub, tag), own m a sub tag with
  | some e, some v => if e.clob then v else e.val
  | none, some v => v
  | _, none => (Given o (short pfx ++ sub) tag).getD (d tag)

/-! ## Lemmas -/

/-- What is stored under a name after it was set. -/
theorem find_set_self (o : Opts) (k : String × String) (v : ℤ) (c : Bool) :
    find (set o k v c) k = some (match find o k with | some e => if e.clob then ⟨k, v, c⟩ else e | none => ⟨k, v, c⟩) := by
  by_cases h : Protected o k
  · rw [set_protected o k v c h]
    obtain ⟨e, he, hc⟩ := h
    simp [he, hc]
  · rw [find_set_eq o k v c h]
    cases he : find o k with
    | none => rfl
    | some e =>
      have : e.clob = true := by
        by_contra hc
        exact h ⟨e, he, by simpa using hc⟩
      simp [this]

theorem sub_ne (pfx sub : String) (h : sub = "pump_for_minlp." ∨ sub = "oa_decomposition.") : short pfx ++ sub ≠ pfx ∧ short pfx ++ sub ≠ "" := by
  constructor
  · intro he
    unfold short at he
    split at he
    · rename_i hp
      rw [hp] at he
      rcases h with rfl | rfl <;> simp at he
    · have := congrArg String.length he
      rw [String.length_append] at this
      rcases h with rfl | rfl
      · have h2 : String.length "pump_for_minlp." = 15 := by decide
        omega
      · have h2 : String.length "oa_decomposition." = 17 := by decide
        omega
  · intro he
    have := congrArg String.length he
    rw [String.length_append] at this
    rcases h with rfl | rfl
    · have h2 : String.length "pump_for_minlp." = 15 := by decide
      simp [h2] at this
    · have h2 : String.length "oa_decomposition." = 17 := by decide
      simp [h2] at this

/-- What the generators find under a name of theirs. -/
theorem find_ready (m : ℤ) (a : Alg) (o : Opts) (pfx sub tag : String) (hs : sub = "pump_for_minlp." ∨ sub = "oa_decomposition.") (ht : tag = "time_limit" ∨ tag = "solution_limit") :
    find (ready m a o pfx) (short pfx ++ sub, tag) = match own m a sub tag with
      | none => find o (short pfx ++ sub, tag)
      | some v => some (match find o (short pfx ++ sub, tag) with | some e => if e.clob then ⟨(short pfx ++ sub, tag), v, true⟩ else e | none => ⟨(short pfx ++ sub, tag), v, true⟩) := by
  unfold ready
  rcases hs with rfl | rfl <;> rcases ht with rfl | rfl <;> cases a <;> simp [presets, applyPresets, find_set_ne, find_set_self, own]

/-- The presets of an algorithm leave other names alone. -/
theorem find_ready_bare (m : ℤ) (a : Alg) (o : Opts) (pfx tag : String) (ht : tag = "time_limit" ∨ tag = "solution_limit") : find (ready m a o pfx) ("", tag) = find o ("", tag) := by
  unfold ready
  apply find_apply_notin
  have h1 := (sub_ne pfx "pump_for_minlp." (Or.inl rfl)).2
  have h2 := (sub_ne pfx "oa_decomposition." (Or.inr rfl)).2
  rcases ht with rfl | rfl <;> cases a <;> simp [presets, h1, h2]

theorem find_ready_global (m : ℤ) (a : Alg) (o : Opts) (pfx tag : String) (ht : tag = "time_limit" ∨ tag = "solution_limit") : find (ready m a o pfx) (pfx, tag) = find o (pfx, tag) := by
  unfold ready
  apply find_apply_notin
  have h1 := (sub_ne pfx "pump_for_minlp." (Or.inl rfl)).1
  have h2 := (sub_ne pfx "oa_decomposition." (Or.inr rfl)).1
  rcases ht with rfl | rfl <;> cases a <;> simp [presets, h1, h2]

/-! ## Properties -/

/-- **C316**: after the presets of the algorithm a generator reads for its own limits the value that is wanted. -/
theorem sub_exact (d : String → ℤ) (m : ℤ) (a : Alg) (o : Opts) (pfx sub tag : String) (hs : sub = "pump_for_minlp." ∨ sub = "oa_decomposition.") (ht : tag = "time_limit" ∨ tag = "solution_limit") :
    (get d (ready m a o pfx) (subPrefix pfx sub) tag).2 = Wanted d m a o pfx sub tag := by
  unfold Bab.Options.get subPrefix Wanted
  rw [find_ready m a o pfx sub tag hs ht, find_ready_bare m a o pfx tag ht]
  unfold Given
  cases own m a sub tag <;> cases find o (short pfx ++ sub, tag) <;> cases find o ("", tag) <;> simp
  all_goals split <;> simp

/-- **C316**: the limits of a generator are the smaller ones of its own limits and the limits of the whole run; the latter are untouched by the presets. -/
theorem limits_exact (d : String → ℤ) (m : ℤ) (a : Alg) (o : Opts) (pfx sub : String) (hs : sub = "pump_for_minlp." ∨ sub = "oa_decomposition.") :
    limits d (ready m a o pfx) pfx sub =
      ⟨min ((Given o pfx "time_limit").getD (d "time_limit")) (Wanted d m a o pfx sub "time_limit"),
       min ((Given o pfx "solution_limit").getD (d "solution_limit")) (Wanted d m a o pfx sub "solution_limit")⟩ := by
  have hg : ∀ tag, (tag = "time_limit" ∨ tag = "solution_limit") → (get d (ready m a o pfx) pfx tag).2 = (Given o pfx tag).getD (d tag) := by
    intro tag ht
    unfold Bab.Options.get Given
    rw [find_ready_global m a o pfx tag ht, find_ready_bare m a o pfx tag ht]
    cases find o (pfx, tag) <;> cases find o ("", tag) <;> simp
  unfold limits
  simp only [sub_exact d m a o pfx sub _ hs (Or.inl rfl), sub_exact d m a o pfx sub _ hs (Or.inr rfl), hg _ (Or.inl rfl), hg _ (Or.inr rfl)]
  congr 1
  rw [min_def]
  split_ifs <;> omega

/-- **C316 (part)**: unless the prefix is empty, what the pump takes for `fp_pass_infeasible` is the user's setting under the prefix of the pump or the bare name, else the default.  The preset of B-iFP and a setting
under the prefix of the run are not looked at. -/
theorem pass_partial (d : String → ℤ) (m : ℤ) (a : Alg) (o : Opts) (pfx : String) (hp : pfx ≠ "") :
    passBound d (ready m a o pfx) pfx = (Given o (short pfx ++ "pump_for_minlp.") "fp_pass_infeasible").getD (d "fp_pass_infeasible") := by
  have h1 := sub_ne pfx "pump_for_minlp." (Or.inl rfl)
  have hr : ∀ q, q = short pfx ++ "pump_for_minlp." ∨ q = "" → find (ready m a o pfx) (q, "fp_pass_infeasible") = find o (q, "fp_pass_infeasible") := by
    intro q hq
    unfold ready
    apply find_apply_notin
    rcases hq with rfl | rfl <;> cases a <;> simp [presets, hp, h1.1.symm]
  unfold passBound Bab.Options.get subPrefix Given
  rw [hr _ (Or.inl rfl), hr _ (Or.inr rfl)]
  cases find o (short pfx ++ "pump_for_minlp.", "fp_pass_infeasible") <;> cases find o ("", "fp_pass_infeasible") <;> simp

/-- **C316**: with the empty prefix the preset of B-iFP does reach the pump, unless the user has set the option for the pump or locked the bare name. -/
theorem pass_bare (d : String → ℤ) (m : ℤ) (a : Alg) (o : Opts) :
    passBound d (ready m a o "") "" = match find o ("pump_for_minlp.", "fp_pass_infeasible"), find o ("", "fp_pass_infeasible") with
      | some e, _ => e.val
      | none, some e => if a = .ifp ∧ e.clob = true then 1 else e.val
      | none, none => if a = .ifp then 1 else d "fp_pass_infeasible" := by
  have hs : short "" ++ "pump_for_minlp." = "pump_for_minlp." := by decide
  have h1 : find (ready m a o "") ("pump_for_minlp.", "fp_pass_infeasible") = find o ("pump_for_minlp.", "fp_pass_infeasible") := by
    unfold ready
    apply find_apply_notin
    cases a <;> simp [presets]
  have h2 : find (ready m a o "") ("", "fp_pass_infeasible") = if a = .ifp then some (match find o ("", "fp_pass_infeasible") with | some e => if e.clob then ⟨("", "fp_pass_infeasible"), 1, true⟩ else e | none => ⟨("", "fp_pass_infeasible"), 1, true⟩) else find o ("", "fp_pass_infeasible") := by
    unfold ready
    cases a <;> simp [presets, applyPresets, find_set_ne, find_set_self]
  unfold passBound Bab.Options.get subPrefix
  rw [hs, h1, h2]
  cases find o ("pump_for_minlp.", "fp_pass_infeasible") with
  | some e => rfl
  | none =>
    cases find o ("", "fp_pass_infeasible") with
    | none => by_cases ha : a = .ifp <;> simp [ha]
    | some e => by_cases ha : a = .ifp <;> by_cases hc : e.clob = true <;> simp [ha, hc]

/-- **C316 (refuted).** `fp_pass_infeasible yes` does not reach the pump: B-iFP presets it under `bonmin.`, the pump looks under `pump_for_minlp.` and under no prefix; so the pump runs with the default `no`, also if
the user writes `bonmin.fp_pass_infeasible yes` as in `test/bonmin.opt`. -/
theorem pass_lost (d : String → ℤ) (hd : d "fp_pass_infeasible" = 0) (m : ℤ) :
    (("bonmin.", "fp_pass_infeasible"), 1) ∈ presets m "bonmin." .ifp ∧ passBound d (ready m .ifp [] "bonmin.") "bonmin." = 0 ∧
    ∀ a, passBound d (ready m a [⟨("bonmin.", "fp_pass_infeasible"), 1, false⟩] "bonmin.") "bonmin." = 0 := by
  refine ⟨by simp [presets], ?_, fun a => ?_⟩ <;> rw [pass_partial d m _ _ _ (by decide)] <;> simp [Given, find, short, hd]

/-- **C316**: so, with the prefix `bonmin.`, the pump of B-iFP never gives up the root unless the user has set the option under one of the two other names. -/
theorem ifp_goes_on {X κ : Type} (d : String → ℤ) (hd : d "fp_pass_infeasible" = 0) (m : ℤ) (o : Opts) (h1 : find o ("pump_for_minlp.", "fp_pass_infeasible") = none) (h2 : find o ("", "fp_pass_infeasible") = none)
    (c : Dec.FpCfg) (hc : c.pass = decide (passBound d (ready m .ifp o "bonmin.") "bonmin." ≠ 0)) (s : Dec.FpSt X κ) : Dec.fpClaim c s = false := by
  have hs : short "bonmin." ++ "pump_for_minlp." = "pump_for_minlp." := by decide
  have : c.pass = false := by
    rw [hc, pass_partial d m _ _ _ (by decide), hs]
    simp [Given, h1, h2, hd]
  simp [Dec.fpClaim, this]

/-! ## Examples -/

/-- The registered defaults: no limits of time and solutions to speak of, no stop on infeasibility. -/
def exD : String → ℤ := fun t => if t = "fp_pass_infeasible" then 0 else if t = "time_limit" then 10 ^ 10 else 2147483647

/-- The pump of B-Hyb with a time limit of 5 seconds for the run. -/
example : limits exD (ready (10 ^ 300) .hyb [⟨("bonmin.", "time_limit"), 5, false⟩] "bonmin.") "bonmin." "pump_for_minlp." = ⟨5, 3⟩ := by decide +kernel
/-- The user's own setting for the pump wins over the preset. -/
example : limits exD (ready (10 ^ 300) .hyb [⟨("pump_for_minlp.", "time_limit"), 60, false⟩] "bonmin.") "bonmin." "pump_for_minlp." = ⟨60, 3⟩ := by decide +kernel
example : limits exD (ready (10 ^ 300) .oa [⟨("bonmin.", "solution_limit"), 7, false⟩] "bonmin.") "bonmin." "oa_decomposition." = ⟨10 ^ 10, 7⟩ := by decide +kernel
example : passBound exD (ready 0 .ifp [⟨("pump_for_minlp.", "fp_pass_infeasible"), 1, false⟩] "bonmin.") "bonmin." = 1 ∧ passBound exD (ready 0 .ifp [⟨("", "fp_pass_infeasible"), 1, false⟩] "bonmin.") "bonmin." = 1 ∧
    passBound exD (ready 0 .ifp [] "") "" = 1 ∧ passBound exD (ready 0 .ifp [] "bonmin.") "bonmin." = 0 := by decide +kernel

end Verif.Dec.SubOptions
