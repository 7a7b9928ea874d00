import Mathlib.Data.Int.Notation
import Mathlib.Data.List.Nodup
import Mathlib.Algebra.Order.Ring.Nat
import Mathlib.Tactic.Linarith
import Mathlib.Tactic.Positivity
import Mathlib.Tactic.Ring

/-!
# Names of variables and constraints
`src/Interfaces/BonColReader.cpp`, `src/Interfaces/BonColReader.hpp`, `AmplInterface::readNames`
(`src/Interfaces/Ampl/BonAmplInterface.cpp:110-130`).

`NamesReader` keeps the names in a `std::vector<std::string>` and their indices in a `std::map` whose keys are the
pointers `names_[i].c_str()`.  A short string stores its characters inside the string object, hence inside the array
of the vector; when the vector grows the array is freed and the key points to freed memory.  The model follows
libstdc++: capacities 0, 1, 2, 4, …; `sso` is the longest length stored inside the object (15).  A lookup in the map
compares keys; it is taken as undefined when some key points to freed memory (which keys are compared depends on the
shape of the tree).  The words of a file (separated by white space) are given; a directory is not considered.
-/
namespace Verif.Slv.Names

/-- A word: its characters. -/
abbrev Word := List Char

/-- Characters `.nl`. -/
def nl : Word := ['.', 'n', 'l']

/-- Name of the file that is opened (BonColReader.cpp:31-36). -/
def fileName (file suffix : Word) : Word :=
  if 4 < file.length ∧ file.drop (file.length - 3) = nl then file.take (file.length - 3) ++ suffix else file ++ suffix

/-- An entry of the map: the characters the key points to, the index, and where they are: `some c` = inside the array of
the vector when its capacity was `c`, `none` = in memory of their own. -/
structure Key where
  word : Word
  idx : ℕ
  home : Option ℕ
deriving DecidableEq, Repr

/-- The members of `NamesReader` (BonColReader.hpp:51-74) and the capacity of `names_`. -/
structure Reader where
  names : List Word
  cap : ℕ
  keys : List Key
deriving DecidableEq, Repr

/-- The constructors (BonColReader.cpp:15-27). -/
def Reader.new : Reader := ⟨[], 0, []⟩

/-- Growth of a vector (libstdc++). -/
def grow (c : ℕ) : ℕ := if c = 0 then 1 else 2 * c

/-- `names_.push_back(name)` (48). -/
def Reader.push (r : Reader) (w : Word) : Reader :=
  { r with names := r.names ++ [w], cap := if r.names.length = r.cap then grow r.cap else r.cap }

/-- The key points to freed memory. -/
def Key.dangling (cap : ℕ) (k : Key) : Bool :=
  match k.home with
  | none => false
  | some c => decide (c ≠ cap)

/-- Some key points to freed memory. -/
def Reader.broken (r : Reader) : Bool := r.keys.any (Key.dangling r.cap)

/-- `indices_[p] = n` for the characters `w` at a place `home` (49); an existing key is kept. -/
def Reader.store (r : Reader) (w : Word) (home : Option ℕ) (n : ℕ) : Option Reader :=
  if r.broken then none
  else if r.keys.any (fun k => decide (k.word = w)) then
    some { r with keys := r.keys.map fun k => if k.word = w then { k with idx := n } else k }
  else some { r with keys := r.keys ++ [⟨w, n, home⟩] }

/-- Where the characters of an element of `names_` are. -/
def Reader.home (sso : ℕ) (r : Reader) (w : Word) : Option ℕ := if w.length ≤ sso then some r.cap else none

/-- The loop (43-52) over the words of the file, `n` = `nVar`. -/
def loop (sso : ℕ) : Reader → ℕ → List Word → Option Reader
  | r, _, [] => some r
  | r, n, w :: ws =>
    match (r.push w).names[n]? with
    | none => none
    | some nm => ((r.push w).store nm ((r.push w).home sso nm) n).bind fun r => loop sso r (n + 1) ws

/-- The index stored for a word. -/
def Reader.find (r : Reader) (w : Word) : Option ℕ := (r.keys.find? (fun k => decide (k.word = w))).map (·.idx)

/-- Outcome of a call. -/
inductive Res where
  | ok (found : Bool) (r : Reader)
  | abort
  | undefined
deriving DecidableEq, Repr

/-- `readFile` (29-59).  `fs` gives the words of the files that can be opened, `dbg` = assertions are compiled in. -/
def readFile (dbg : Bool) (sso : ℕ) (fs : Word → Option (List Word)) (r : Reader) (file suffix : Word) : Res :=
  match fs (fileName file suffix) with
  | none => .ok false r
  | some ws =>
    match loop sso r 0 ws with
    | none => .undefined
    | some r =>
      if dbg then
        if r.broken then .undefined
        else if (List.range ws.length).all (fun i => decide ((r.names[i]?).bind r.find = some i)) then .ok true r else .abort
      else .ok true r

/-- `index` (BonColReader.hpp:46-48): `operator[]` enters a word that is not there with value 0. -/
def Reader.index (r : Reader) (w : Word) : Option (ℕ × Reader) :=
  if r.broken then none
  else
    match r.find w with
    | some i => some (i, r)
    | none => some (0, { r with keys := r.keys ++ [⟨w, 0, none⟩] })

/-- `copyNames` (61-65): the result is the reader and the vector passed. -/
def Reader.copyNames (r : Reader) (names : List Word) : Reader × List Word := ({ r with names := names }, names)

/-- One half of `AmplInterface::readNames` (BonAmplInterface.cpp:115-120): the names of the columns afterwards.
`setColNames` with a vector of `k` names sets the first `k` names. -/
def readNames (dbg : Bool) (sso : ℕ) (fs : Word → Option (List Word)) (prob suffix : Word) (cur : List Word) : Option (List Word) :=
  match readFile dbg sso fs Reader.new prob suffix with
  | .ok true r => some ((r.copyNames []).2 ++ cur.drop (r.copyNames []).2.length)
  | .ok false _ => some cur
  | .abort => none
  | .undefined => none

/-! ## Names of files -/

/-- The extension `.nl` of a name of at least five characters is replaced. -/
theorem stub_replaced (s suffix : Word) (h : 2 ≤ s.length) : fileName (s ++ nl) suffix = s ++ suffix := by
  have hl : (s ++ nl).length - 3 = s.length := by simp [nl]
  unfold fileName
  rw [hl, List.drop_left, List.take_left, if_pos ⟨by simp [nl]; omega, rfl⟩]

/-- A name without the extension is extended. -/
theorem stub_kept (s suffix : Word) (h : ∀ t, s ≠ t ++ nl) : fileName s suffix = s ++ suffix := by
  unfold fileName
  rw [if_neg]
  rintro ⟨_, e⟩
  exact h (s.take (s.length - 3)) (by rw [← e, List.take_append_drop])

/-- The model `x.nl` has its names looked up in `x.nl.col`. -/
theorem short_stub_missed : fileName ['x', '.', 'n', 'l'] ['.', 'c', 'o', 'l'] = ['x', '.', 'n', 'l', '.', 'c', 'o', 'l'] := by
  decide +kernel

example : fileName ['x', 'y', '.', 'n', 'l'] ['.', 'c', 'o', 'l'] = ['x', 'y', '.', 'c', 'o', 'l'] := by decide +kernel

/-! ## Capacities -/

/-- Capacity after `k` insertions. -/
def capOf : ℕ → ℕ
  | 0 => 0
  | k + 1 => if k = capOf k then grow (capOf k) else capOf k

theorem capOf_pow (k : ℕ) : ∃ m, capOf (k + 1) = 2 ^ m ∧ k + 1 ≤ 2 ^ m ∧ (m = 0 ∨ 2 ^ (m - 1) < k + 1) := by
  induction k with
  | zero => exact ⟨0, by simp [capOf, grow], by simp, Or.inl rfl⟩
  | succ k ih =>
    obtain ⟨m, h1, h2, h3⟩ := ih
    have e : capOf (k + 1 + 1) = if k + 1 = capOf (k + 1) then grow (capOf (k + 1)) else capOf (k + 1) := rfl
    rw [e]
    by_cases hk : k + 1 = capOf (k + 1)
    · rw [if_pos hk]
      rw [h1] at hk ⊢
      have hp : (2 : ℕ) ^ m ≠ 0 := by positivity
      refine ⟨m + 1, by simp [grow]; ring, ?_, Or.inr ?_⟩
      · rw [pow_succ]; omega
      · simp only [Nat.add_sub_cancel]; omega
    · rw [if_neg hk]
      rw [h1] at hk
      exact ⟨m, h1, by omega, h3.imp id (fun h => by omega)⟩

theorem capOf_mono {i j : ℕ} (h : i ≤ j) : capOf i ≤ capOf j := by
  induction j with
  | zero => rw [Nat.le_zero.mp h]
  | succ j ih =>
    rcases Nat.lt_or_ge i (j + 1) with h' | h'
    · refine le_trans (ih (by omega)) ?_
      show capOf j ≤ if j = capOf j then grow (capOf j) else capOf j
      split
      · unfold grow; split <;> omega
      · exact le_rfl
    · have : i = j + 1 := by omega
      rw [this]

/-- The array was replaced between the insertions of elements `i` and `j` exactly if a power of two lies between. -/
theorem capOf_ne_iff {i j : ℕ} (h : i ≤ j) : capOf (i + 1) ≠ capOf (j + 1) ↔ ∃ m, i < 2 ^ m ∧ 2 ^ m ≤ j := by
  obtain ⟨a, ha1, ha2, ha3⟩ := capOf_pow i
  obtain ⟨b, hb1, hb2, hb3⟩ := capOf_pow j
  constructor
  · intro hne
    have hlt : (2 : ℕ) ^ a < 2 ^ b := by
      have := capOf_mono (Nat.succ_le_succ h)
      rw [ha1, hb1] at hne
      simp only [Nat.succ_eq_add_one, ha1, hb1] at this
      omega
    have hab : a < b := (Nat.pow_lt_pow_iff_right (by omega)).mp hlt
    refine ⟨a, by omega, ?_⟩
    rcases hb3 with hb3 | hb3
    · omega
    · have : (2 : ℕ) ^ a ≤ 2 ^ (b - 1) := Nat.pow_le_pow_right (by omega) (by omega)
      omega
  · rintro ⟨m, h1, h2⟩ he
    have hle : (2 : ℕ) ^ a ≤ 2 ^ m := by
      rcases ha3 with h0 | h0
      · rw [h0]; exact Nat.pow_le_pow_right (by omega) (by omega)
      · have hlt : (2 : ℕ) ^ (a - 1) < 2 ^ m := by omega
        have := (Nat.pow_lt_pow_iff_right (by omega)).mp hlt
        exact Nat.pow_le_pow_right (by omega) (by omega)
    rw [ha1, hb1] at he
    omega

/-! ## Reading -/

/-- The state after the words `p` were read into a new reader. -/
structure Inv (sso : ℕ) (p : List Word) (r : Reader) : Prop where
  names : r.names = p
  cap : r.cap = capOf p.length
  nodup : (r.keys.map (·.word)).Nodup
  keys : ∀ k ∈ r.keys, ∃ i : ℕ, p[i]? = some k.word ∧ (∀ i' < i, p[i']? ≠ some k.word) ∧
    k.home = (if k.word.length ≤ sso then some (capOf (i + 1)) else none) ∧
    p[k.idx]? = some k.word ∧ ∀ j, k.idx < j → p[j]? ≠ some k.word
  all : ∀ (i : ℕ) (w : Word), p[i]? = some w → ∃ k ∈ r.keys, Key.word k = w

/-- A short word was read before the array was replaced, `n` words having been read. -/
def Lost (sso : ℕ) (p : List Word) (n : ℕ) : Prop :=
  ∃ i m w, p[i]? = some w ∧ w.length ≤ sso ∧ i < 2 ^ m ∧ 2 ^ m < n

theorem broken_iff {sso : ℕ} {p : List Word} {r : Reader} (h : Inv sso p r) (c n : ℕ) (hn : p.length ≤ n) (hc : c = capOf (n + 1)) :
    (r.keys.any (Key.dangling c) = true) ↔ Lost sso p (n + 1) := by
  rw [List.any_eq_true]
  constructor
  · rintro ⟨k, hk, hd⟩
    obtain ⟨i, hi, _, hh, _, _⟩ := h.keys k hk
    unfold Key.dangling at hd
    by_cases hs : k.word.length ≤ sso
    · rw [if_pos hs] at hh
      rw [hh] at hd
      have hil : i < p.length := (List.getElem?_eq_some_iff.mp hi).1
      have hd' : capOf (i + 1) ≠ capOf (n + 1) := by rw [← hc]; exact of_decide_eq_true hd
      obtain ⟨m, h1, h2⟩ := (capOf_ne_iff (by omega)).mp hd'
      exact ⟨i, m, k.word, hi, hs, h1, by omega⟩
    · rw [if_neg hs] at hh
      rw [hh] at hd; simp at hd
  · rintro ⟨i, m, w, hi, hs, h1, h2⟩
    obtain ⟨k, hk, rfl⟩ := h.all i w hi
    refine ⟨k, hk, ?_⟩
    obtain ⟨i', hi', hfirst, hh, _, _⟩ := h.keys k hk
    rw [if_pos hs] at hh
    have hle : i' ≤ i := by
      by_contra hlt
      exact hfirst i (by omega) hi
    have hil : i' < p.length := (List.getElem?_eq_some_iff.mp hi').1
    have : capOf (i' + 1) ≠ capOf (n + 1) := (capOf_ne_iff (by omega)).mpr ⟨m, by omega, by omega⟩
    unfold Key.dangling
    rw [hh]; simp [hc, this]

theorem getElem?_snoc {p : List Word} {w v : Word} {i : ℕ} :
    (p ++ [w])[i]? = some v ↔ p[i]? = some v ∨ i = p.length ∧ w = v := by
  rcases Nat.lt_trichotomy i p.length with h | h | h
  · rw [List.getElem?_append_left h]
    constructor
    · exact Or.inl
    · rintro (h' | ⟨h', _⟩)
      · exact h'
      · omega
  · subst h
    simp
  · rw [List.getElem?_append_right (by omega)]
    have h1 : [w][i - p.length]? = none := by rw [List.getElem?_eq_none_iff]; simp; omega
    have h2 : p[i]? = none := by rw [List.getElem?_eq_none_iff]; omega
    rw [h1, h2]; simp; omega

theorem inv_push {sso : ℕ} {p : List Word} {r : Reader} (h : Inv sso p r) (w : Word) :
    (Lost sso p (p.length + 1) ∧ (r.push w).store w ((r.push w).home sso w) p.length = none) ∨
    (¬ Lost sso p (p.length + 1) ∧ ∃ r', (r.push w).store w ((r.push w).home sso w) p.length = some r' ∧ Inv sso (p ++ [w]) r') := by
  have hcap : (r.push w).cap = capOf (p.length + 1) := by
    simp only [Reader.push, h.names, h.cap]; rfl
  have hb : (r.push w).broken = r.keys.any (Key.dangling (capOf (p.length + 1))) := by
    rw [Reader.broken, hcap]; rfl
  have hbi := broken_iff h (capOf (p.length + 1)) p.length le_rfl rfl
  have hkeys : (r.push w).keys = r.keys := rfl
  have hnm : (r.push w).names = p ++ [w] := by simp [Reader.push, h.names]
  by_cases hl : Lost sso p (p.length + 1)
  · left
    refine ⟨hl, ?_⟩
    unfold Reader.store
    rw [if_pos (by rw [hb]; exact hbi.mpr hl)]
  · right
    refine ⟨hl, ?_⟩
    have hnb : ¬ ((r.push w).broken = true) := by rw [hb]; exact fun e => hl (hbi.mp e)
    unfold Reader.store
    rw [if_neg hnb, hkeys]
    by_cases hex : r.keys.any (fun k => decide (k.word = w)) = true
    · rw [if_pos hex]
      refine ⟨_, rfl, ?_⟩
      have hm : (r.keys.map fun k => if k.word = w then { k with idx := p.length } else k).map (·.word) = r.keys.map (·.word) := by
        rw [List.map_map]
        apply List.map_congr_left
        intro k _
        simp only [Function.comp]
        split <;> rfl
      obtain ⟨k0, hk0, e0⟩ := List.any_eq_true.mp hex
      have e0 : k0.word = w := of_decide_eq_true e0
      refine ⟨hnm, by simpa using hcap, by simpa [hm] using h.nodup, ?_, ?_⟩
      · intro k hk
        obtain ⟨k1, hk1, rfl⟩ := List.mem_map.mp hk
        obtain ⟨i, h1, h2, h3, h4, h5⟩ := h.keys k1 hk1
        have hil : i < p.length := (List.getElem?_eq_some_iff.mp h1).1
        by_cases e : k1.word = w
        · simp only [if_pos e]
          refine ⟨i, getElem?_snoc.mpr (Or.inl h1), ?_, h3, getElem?_snoc.mpr (Or.inr ⟨rfl, e.symm⟩), ?_⟩
          · intro i' hi' h'
            rcases getElem?_snoc.mp h' with h' | ⟨h', _⟩
            · exact h2 i' hi' h'
            · omega
          · intro j hj h'
            rcases getElem?_snoc.mp h' with h' | ⟨h', _⟩
            · have := (List.getElem?_eq_some_iff.mp h').1; omega
            · omega
        · simp only [if_neg e]
          refine ⟨i, getElem?_snoc.mpr (Or.inl h1), ?_, h3, getElem?_snoc.mpr (Or.inl h4), ?_⟩
          · intro i' hi' h'
            rcases getElem?_snoc.mp h' with h' | ⟨_, h'⟩
            · exact h2 i' hi' h'
            · exact e h'.symm
          · intro j hj h'
            rcases getElem?_snoc.mp h' with h' | ⟨_, h'⟩
            · exact h5 j hj h'
            · exact e h'.symm
      · intro i v hv
        have : ∃ k ∈ r.keys, k.word = v := by
          rcases getElem?_snoc.mp hv with h' | ⟨_, rfl⟩
          · exact h.all i v h'
          · exact ⟨k0, hk0, e0⟩
        obtain ⟨k, hk, e⟩ := this
        refine ⟨_, List.mem_map_of_mem hk, ?_⟩
        split <;> simpa using e
    · rw [if_neg hex]
      have hnew : ∀ k ∈ r.keys, k.word ≠ w := by
        intro k hk e
        exact hex (List.any_eq_true.mpr ⟨k, hk, by simp [e]⟩)
      have hpn : ∀ i : ℕ, p[i]? ≠ some w := by
        intro i hi
        obtain ⟨k, hk, e⟩ := h.all i w hi
        exact hnew k hk e
      refine ⟨_, rfl, ⟨hnm, by simpa using hcap, ?_, ?_, ?_⟩⟩
      · simp only [List.map_append, List.map_cons, List.map_nil]
        rw [List.nodup_append]
        refine ⟨h.nodup, by simp, ?_⟩
        intro a ha b hb' e
        obtain ⟨k, hk, rfl⟩ := List.mem_map.mp ha
        rw [List.mem_singleton.mp hb'] at e
        exact hnew k hk e
      · intro k hk
        rcases List.mem_append.mp hk with hk | hk
        · obtain ⟨i, h1, h2, h3, h4, h5⟩ := h.keys k hk
          have e := hnew k hk
          refine ⟨i, getElem?_snoc.mpr (Or.inl h1), ?_, h3, getElem?_snoc.mpr (Or.inl h4), ?_⟩
          · intro i' hi' h'
            rcases getElem?_snoc.mp h' with h' | ⟨_, h'⟩
            · exact h2 i' hi' h'
            · exact e h'.symm
          · intro j hj h'
            rcases getElem?_snoc.mp h' with h' | ⟨_, h'⟩
            · exact h5 j hj h'
            · exact e h'.symm
        · rw [List.mem_singleton.mp hk]
          refine ⟨p.length, getElem?_snoc.mpr (Or.inr ⟨rfl, rfl⟩), ?_, ?_, getElem?_snoc.mpr (Or.inr ⟨rfl, rfl⟩), ?_⟩
          · intro i' hi' h'
            rcases getElem?_snoc.mp h' with h' | ⟨h', _⟩
            · exact hpn i' h'
            · omega
          · simp only [Reader.home, hcap]
          · intro j hj h'
            have hj : p.length < j := hj
            rcases getElem?_snoc.mp h' with h' | ⟨h', _⟩
            · exact hpn j h'
            · omega
      · intro i v hv
        rcases getElem?_snoc.mp hv with h' | ⟨_, rfl⟩
        · obtain ⟨k, hk, e⟩ := h.all i v h'
          exact ⟨k, List.mem_append_left _ hk, e⟩
        · exact ⟨_, List.mem_append_right _ (List.mem_singleton_self _), rfl⟩

theorem Lost.mono {sso : ℕ} {p q : List Word} {n m : ℕ} (h : Lost sso p n) (hnm : n ≤ m) : Lost sso (p ++ q) m := by
  obtain ⟨i, a, w, h1, h2, h3, h4⟩ := h
  have := (List.getElem?_eq_some_iff.mp h1).1
  exact ⟨i, a, w, by rw [List.getElem?_append_left this]; exact h1, h2, h3, by omega⟩

theorem loop_inv {sso : ℕ} (ws : List Word) : ∀ {p : List Word} {r : Reader}, Inv sso p r → ¬ Lost sso p p.length →
    (Lost sso (p ++ ws) (p ++ ws).length ∧ loop sso r p.length ws = none) ∨
    (¬ Lost sso (p ++ ws) (p ++ ws).length ∧ ∃ r', loop sso r p.length ws = some r' ∧ Inv sso (p ++ ws) r') := by
  induction ws with
  | nil =>
    intro p r h hl
    right
    rw [List.append_nil]
    exact ⟨hl, r, rfl, h⟩
  | cons w ws ih =>
    intro p r h hl
    have hnm : (r.push w).names[p.length]? = some w := by simp [Reader.push, h.names]
    have eq : p ++ w :: ws = (p ++ [w]) ++ ws := by simp
    rcases inv_push h w with ⟨h1, h2⟩ | ⟨h1, r', h2, h3⟩
    · left
      refine ⟨h1.mono (by simp), ?_⟩
      simp only [loop, hnm, h2, Option.bind_none]
    · have hl' : ¬ Lost sso (p ++ [w]) (p ++ [w]).length := by
        rintro ⟨i, m, v, e1, e2, e3, e4⟩
        rw [List.length_append, List.length_singleton] at e4
        rcases getElem?_snoc.mp e1 with e1 | ⟨e1, _⟩
        · exact h1 ⟨i, m, v, e1, e2, e3, by omega⟩
        · omega
      have := ih h3 hl'
      have hl2 : (p ++ [w]).length = p.length + 1 := by simp
      rw [hl2, ← eq] at this
      simpa only [loop, hnm, h2, Option.bind_some] using this

theorem inv_new (sso : ℕ) : Inv sso [] Reader.new :=
  ⟨rfl, rfl, by simp [Reader.new], by simp [Reader.new], by simp⟩

theorem find_iff {sso : ℕ} {p : List Word} {r : Reader} (h : Inv sso p r) (w : Word) (j : ℕ) :
    r.find w = some j ↔ p[j]? = some w ∧ ∀ j', j < j' → p[j']? ≠ some w := by
  have key : ∀ k ∈ r.keys, k.word = w → (k.idx = j ↔ p[j]? = some w ∧ ∀ j', j < j' → p[j']? ≠ some w) := by
    intro k hk e
    obtain ⟨_, _, _, _, h4, h5⟩ := h.keys k hk
    rw [e] at h4 h5
    constructor
    · rintro rfl; exact ⟨h4, h5⟩
    · rintro ⟨f1, f2⟩
      rcases Nat.lt_trichotomy k.idx j with hlt | heq | hgt
      · exact absurd f1 (h5 j hlt)
      · exact heq
      · exact absurd h4 (f2 _ hgt)
  unfold Reader.find
  cases hf : r.keys.find? (fun k => decide (k.word = w)) with
  | none =>
    simp only [Option.map_none, reduceCtorEq, false_iff]
    rintro ⟨f1, _⟩
    obtain ⟨k, hk, e⟩ := h.all j w f1
    have := List.find?_eq_none.mp hf k hk
    simp [e] at this
  | some k =>
    have hk := List.mem_of_find?_eq_some hf
    have e := List.find?_some hf
    have e : k.word = w := by simpa using e
    rw [Option.map_some, Option.some.injEq]
    exact key k hk e

/-! ## Theorems -/

/-- **When reading is defined** (without assertions): no short name was read before the array of names was replaced.
Then the reader has the words of the file in order, and the index of a word is its last position. -/
theorem read_release (sso : ℕ) (fs : Word → Option (List Word)) (file suffix : Word) (ws : List Word)
    (hf : fs (fileName file suffix) = some ws) :
    (readFile false sso fs Reader.new file suffix = .undefined ↔ Lost sso ws ws.length) ∧
    (¬ Lost sso ws ws.length → ∃ r, readFile false sso fs Reader.new file suffix = .ok true r ∧ r.names = ws ∧
      ∀ w j, ws[j]? = some w → (∀ j', j < j' → ws[j']? ≠ some w) → ∃ r', r.index w = some (j, r')) := by
  have hl0 : ¬ Lost sso [] ([] : List Word).length := by rintro ⟨i, m, w, h1, _⟩; simp at h1
  have := loop_inv ws (inv_new sso) hl0
  simp only [List.nil_append, List.length_nil] at this
  rcases this with ⟨h1, h2⟩ | ⟨h1, r, h2, h3⟩
  · refine ⟨?_, fun h => absurd h1 h⟩
    simp [readFile, hf, h2, h1]
  · refine ⟨?_, fun _ => ⟨r, ?_, h3.names, ?_⟩⟩
    · simp [readFile, hf, h2, h1]
    · simp [readFile, hf, h2]
    · intro w j e1 e2
      have hfi := (find_iff h3 w j).mpr ⟨e1, e2⟩
      have hn : 0 < ws.length := by have := (List.getElem?_eq_some_iff.mp e1).1; omega
      have hb : ¬ (r.broken = true) := by
        intro e
        rw [Reader.broken, h3.cap, List.any_eq_true] at e
        obtain ⟨k, hk, hd⟩ := e
        obtain ⟨i, hi, _, hh, _, _⟩ := h3.keys k hk
        have hil := (List.getElem?_eq_some_iff.mp hi).1
        unfold Key.dangling at hd
        by_cases hs : k.word.length ≤ sso
        · rw [if_pos hs] at hh
          rw [hh] at hd
          have hd' : capOf (i + 1) ≠ capOf (ws.length - 1 + 1) := by
            rw [Nat.sub_add_cancel hn]; exact of_decide_eq_true hd
          obtain ⟨m, f1, f2⟩ := (capOf_ne_iff (by omega)).mp hd'
          exact h1 ⟨i, m, k.word, hi, hs, f1, by omega⟩
        · rw [if_neg hs] at hh
          rw [hh] at hd; simp at hd
      refine ⟨r, ?_⟩
      unfold Reader.index
      rw [if_neg hb, hfi]

/-- With names that are all long and different, with or without assertions, reading succeeds: names and indices are
those of the file. -/
theorem read_long_partial (dbg : Bool) (sso : ℕ) (fs : Word → Option (List Word)) (file suffix : Word) (ws : List Word)
    (hf : fs (fileName file suffix) = some ws) (hlong : ∀ w ∈ ws, sso < w.length) (hnd : ws.Nodup) :
    ∃ r, readFile dbg sso fs Reader.new file suffix = .ok true r ∧ r.names = ws ∧
      ∀ i w, ws[i]? = some w → ∃ r', r.index w = some (i, r') := by
  have hnl : ¬ Lost sso ws ws.length := by
    rintro ⟨i, m, w, h1, h2, _⟩
    have := hlong w (List.mem_of_getElem? h1); omega
  have hl0 : ¬ Lost sso [] ([] : List Word).length := by rintro ⟨i, m, w, h1, _⟩; simp at h1
  have := loop_inv ws (inv_new sso) hl0
  simp only [List.nil_append, List.length_nil] at this
  rcases this with ⟨h1, h2⟩ | ⟨_, r, h2, h3⟩
  · exact absurd h1 hnl
  have hb : r.broken = false := by
    rw [Reader.broken, List.any_eq_false]
    intro k hk
    obtain ⟨i, hi, _, hh, _, _⟩ := h3.keys k hk
    have := hlong _ (List.mem_of_getElem? hi)
    rw [if_neg (by omega)] at hh
    simp [Key.dangling, hh]
  have hfind : ∀ i w, ws[i]? = some w → r.find w = some i := by
    intro i w hi
    refine (find_iff h3 w i).mpr ⟨hi, fun j hj e => ?_⟩
    have h1 := (List.getElem?_eq_some_iff.mp hi).1
    have h2 := (List.getElem?_eq_some_iff.mp e).1
    have e1 := (List.getElem?_eq_some_iff.mp hi).2
    have e2 := (List.getElem?_eq_some_iff.mp e).2
    have := (hnd.getElem_inj_iff (hi := h1) (hj := h2)).mp (e1.trans e2.symm)
    omega
  refine ⟨r, ?_, h3.names, ?_⟩
  · simp only [readFile, hf, h2, hb]
    cases dbg
    · simp
    · rw [if_pos rfl, if_neg (by simp), if_pos]
      rw [List.all_eq_true]
      intro i hi
      have hi : i < ws.length := List.mem_range.mp hi
      simp only [h3.names, List.getElem?_eq_getElem hi, Option.bind_some, decide_eq_true_eq]
      exact hfind i _ (List.getElem?_eq_getElem hi)
  · intro i w hi
    refine ⟨r, ?_⟩
    unfold Reader.index
    rw [if_neg (by simp [hb]), hfind i w hi]

/-- A missing file leaves the reader alone. -/
theorem missing (dbg : Bool) (sso : ℕ) (fs : Word → Option (List Word)) (r : Reader) (file suffix : Word)
    (hf : fs (fileName file suffix) = none) : readFile dbg sso fs r file suffix = .ok false r := by
  simp [readFile, hf]

example : (["abcdefghijklmnop", "abcdefghijklmnoq", "abcdefghijklmnor"].map String.toList).all (fun w => decide (15 < w.length)) = true := by
  decide +kernel

/-! ## Where the code differs from what is claimed -/

/-- Any file of at least two names whose first name is short (up to 15 characters) makes the reader use freed memory. -/
theorem short_names_undefined (dbg : Bool) (sso : ℕ) (fs : Word → Option (List Word)) (file suffix : Word) (ws : List Word)
    (hf : fs (fileName file suffix) = some ws) (w : Word) (h0 : ws[0]? = some w) (hs : w.length ≤ sso) (h2 : 2 ≤ ws.length) :
    readFile dbg sso fs Reader.new file suffix = .undefined := by
  have hl : Lost sso ws ws.length := ⟨0, 0, w, h0, hs, by simp, by rw [pow_zero]; omega⟩
  have hl0 : ¬ Lost sso [] ([] : List Word).length := by rintro ⟨i, m, w, h1, _⟩; simp at h1
  have := loop_inv ws (inv_new sso) hl0
  simp only [List.nil_append, List.length_nil] at this
  rcases this with ⟨_, h⟩ | ⟨h, _⟩
  · simp [readFile, hf, h]
  · exact absurd hl h

/-- The names read are never given to the interface: `copyNames` assigns in the wrong direction, so the names of the
columns stay what they were, whatever the file says. -/
theorem names_not_used (dbg : Bool) (sso : ℕ) (fs : Word → Option (List Word)) (prob suffix : Word) (cur res : List Word)
    (h : readNames dbg sso fs prob suffix cur = some res) : res = cur := by
  unfold readNames at h
  split at h
  · simpa [Reader.copyNames] using h.symm
  · exact (Option.some.inj h).symm
  · simp at h
  · simp at h

/-- … although the file can be read. -/
example : readNames false 2 (fun _ => some [['a', 'b', 'c'], ['d', 'e', 'f']]) ['p'] ['.', 'c', 'o', 'l'] [['x'], ['y']] = some [['x'], ['y']] := by
  decide +kernel

/-- The index of a name that does not occur is 0, as for the first variable. -/
theorem unknown_is_first :
    ((match readFile true 2 (fun _ => some [['a', 'b', 'c'], ['d', 'e', 'f']]) Reader.new ['p'] ['.', 'c', 'o', 'l'] with
      | .ok _ r => (r.index ['z', 'z', 'z']).map (·.1)
      | _ => none) = some 0) ∧
    ((match readFile true 2 (fun _ => some [['a', 'b', 'c'], ['d', 'e', 'f']]) Reader.new ['p'] ['.', 'c', 'o', 'l'] with
      | .ok _ r => (r.index ['a', 'b', 'c']).map (·.1)
      | _ => none) = some 0) := by
  decide +kernel

/-- A name that occurs twice fails an assertion. -/
theorem duplicate_aborts : readFile true 2 (fun _ => some [['a', 'b', 'c'], ['a', 'b', 'c']]) Reader.new ['p'] ['.', 'c', 'o', 'l'] = .abort := by
  decide +kernel

/-- A reader used for a second file keeps the names of the first one, and gives the new names no index. -/
theorem second_file :
    (match readFile false 2 (fun f => if f.length = 5 then some [['a', 'b', 'c']] else some [['d', 'e', 'f']]) Reader.new ['p'] ['.', 'c', 'o', 'l'] with
      | .ok _ r =>
        match readFile false 2 (fun f => if f.length = 5 then some [['a', 'b', 'c']] else some [['d', 'e', 'f']]) r ['p', 'q'] ['.', 'c', 'o', 'l'] with
        | .ok _ r => some (r.names, r.find ['d', 'e', 'f'])
        | _ => none
      | _ => none) = some ([['a', 'b', 'c'], ['d', 'e', 'f']], none) := by
  decide +kernel

/-- C96: asking for a name that does not occur answers 0 and enters it as one with index 0, with storage of its own. -/
theorem unknown_entered (r r' : Reader) (w : Word) (i : ℕ) (hw : r.find w = none) (h : r.index w = some (i, r')) :
    i = 0 ∧ r'.find w = some 0 ∧ r'.keys = r.keys ++ [⟨w, 0, none⟩] ∧ r'.names = r.names ∧ ∀ v, v ≠ w → r'.find v = r.find v := by
  unfold Reader.index at h
  split at h
  · simp at h
  · rw [hw] at h
    simp only [Option.some.injEq, Prod.mk.injEq] at h
    obtain ⟨rfl, rfl⟩ := h
    have hn : r.keys.find? (fun k => decide (k.word = w)) = none := by
      unfold Reader.find at hw
      simpa using hw
    refine ⟨rfl, ?_, rfl, rfl, fun v hv => ?_⟩
    · simp [Reader.find, List.find?_append, hn]
    · simp [Reader.find, List.find?_append, Ne.symm hv]

end Verif.Slv.Names
