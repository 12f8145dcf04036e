"""usage: setstatus.py ID status note"""
import json, sys, pathlib
f = pathlib.Path(__file__).resolve().parent / "status.json"
d = json.load(open(f))
d[sys.argv[1]] = [sys.argv[2], sys.argv[3]]
json.dump(dict(sorted(d.items())), open(f, "w"), indent=1, ensure_ascii=False)
