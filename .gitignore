.lake/
lean/.lake/
lean/lake-manifest.json.tmp
