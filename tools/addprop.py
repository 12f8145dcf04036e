"""usage: addprop.py ID title statement quantifier why anchors(;-separated): appends to gen_props.py"""
import sys, pathlib
f = pathlib.Path(__file__).resolve().parent / "gen_props.py"
s = f.read_text()
i, t, st, q, w, a = sys.argv[1:7]
e = f"p({i!r},{t!r},\n  {st!r},\n  {q!r},{w!r},\n  {a.split(';')!r})\n"
assert f'"{i}"' not in s and f"'{i}'" not in s
s = s.replace("here=os.path.dirname", e + "here=os.path.dirname")
f.write_text(s)
