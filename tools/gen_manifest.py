"""Regenerates MANIFEST.json from the theorem names in lean/Verif (C<nn>_...)
and the status table below."""
import json, re, pathlib
root = pathlib.Path(__file__).resolve().parent.parent
props = [json.loads(l) for l in open(root / "properties.jsonl") if l.strip()]
thms = {}
for f in sorted((root / "lean/Verif").rglob("*.lean")):
    ns = []
    for line in f.read_text().splitlines():
        m = re.match(r"namespace (\S+)", line)
        if m: ns.append(m.group(1))
        m = re.match(r"end (\S+)", line)
        if m and ns and ns[-1] == m.group(1): ns.pop()
        m = re.match(r"theorem (C(\d\d+)_\S+)", line)
        if m:
            thms.setdefault("C" + m.group(2), []).append(".".join(ns + [m.group(1)]))
status = json.load(open(root / "tools/status.json"))
claims = []
for p in props:
    i = p["id"]
    t = thms.get(i, [])
    if i not in status and not t:
        continue
    st, note = status[i]
    if st != "not_applicable" and not t:
        raise SystemExit(f"{i}: status {st} but no theorem")
    if st == "not_applicable" and t:
        raise SystemExit(f"{i}: theorems but no status: {t}")
    claims.append({"property": i, "status": st, "theorems": t, "note": note})
unknown = set(thms) - {p["id"] for p in props}
if unknown: raise SystemExit(f"theorems without property: {unknown}")
json.dump({"claims": claims}, open(root / "MANIFEST.json", "w"), indent=1, ensure_ascii=False)
print({s: sum(c["status"] == s for c in claims) for s in ("proved", "partial", "not_applicable")})
