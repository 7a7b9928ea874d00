.lake/
lean/lake-manifest.json
