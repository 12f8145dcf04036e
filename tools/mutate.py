"""Mutation testing.  usage: mutate.py SPEC.jsonl
Each line of SPEC: {"file": "Verif/..", "def": name, "old": text, "new": text, "claim": text}.
Works in a scratch copy (/tmp/mut); appends one line per attempt to seeded/LOG.jsonl."""
import json, re, shutil, subprocess, sys, pathlib
root = pathlib.Path(__file__).resolve().parent.parent
scratch = pathlib.Path("/tmp/mut")
subprocess.run(["rsync", "-a", "--delete", str(root / "lean") + "/", str(scratch) + "/"], check=False) \
    if shutil.which("rsync") else (shutil.rmtree(scratch, ignore_errors=True),
                                   shutil.copytree(root / "lean", scratch, symlinks=True))

decl_re = re.compile(r"^(?:@\[[^\]]*\]\s*)?(?:private |protected |noncomputable )*(theorem|lemma|def|structure|instance|example|inductive|abbrev)\s*([^\s:({\[]*)", re.M)

def decls(path):
    s = path.read_text()
    ms = list(decl_re.finditer(s))
    out = []
    for i, m in enumerate(ms):
        end = ms[i + 1].start() if i + 1 < len(ms) else len(s)
        out.append((s.count("\n", 0, m.start()) + 1, m.group(1), m.group(2), s[m.start():end]))
    return out

def closure(failed):
    """property theorems whose proof (textually, transitively) uses a failed declaration;
    `failed` is a list of (file, name); a name is only followed along imports"""
    files = {str(f.relative_to(scratch)): f for f in (scratch / "Verif").rglob("*.lean")}
    imports = {k: {x.replace(".", "/") + ".lean" for x in re.findall(r"^import (Verif\.[\w.]+)", f.read_text(), re.M)}
               for k, f in files.items()}
    reach = {}
    def visible(k):
        if k not in reach:
            reach[k] = {k}.union(*[visible(i) for i in imports.get(k, ())])
        return reach[k]
    thms = []
    for k, f in files.items():
        for _, kind, name, body in decls(f):
            if kind in ("theorem", "lemma") and name:
                thms.append((k, name.split(".")[-1],
                             {t.split(".")[-1] for t in re.findall(r"[A-Za-z_][\w'.]*", body)}))
    seen = {(f, n.split(".")[-1]) for f, n in failed if n}
    frontier = set(seen)
    while frontier:
        nxt = {(k, n) for k, n, uses in thms if (k, n) not in seen and
               any(m in uses and g in visible(k) for g, m in frontier)}
        seen |= nxt
        frontier = nxt
    return sorted(n for _, n in seen if re.match(r"C\d\d+_", n))

for line in open(sys.argv[1]):
    line = line.strip()
    if not line:
        continue
    m = json.loads(line)
    src = root / "lean" / m["file"]
    s = src.read_text()
    if s.count(m["old"]) < 1:
        print("NOT FOUND", m["def"], m["old"]); continue
    n = m.get("nth", 0)
    parts = s.split(m["old"])
    t = m["old"].join(parts[:n + 1]) + m["new"] + m["old"].join(parts[n + 1:])
    (scratch / m["file"]).write_text(t)
    r = subprocess.run(["lake", "build"], cwd=scratch, capture_output=True, text=True)
    out = r.stdout + r.stderr
    failed, where = [], []
    for f, l in re.findall(r"error: (Verif/[\w/]+\.lean):(\d+):", out):
        cand = [d for d in decls(scratch / f) if d[0] <= int(l)]
        if cand:
            nm = cand[-1][2] or ("example at line %d" % cand[-1][0])
            if cand[-1][1] == "example": nm = "example %s:%d" % (f, cand[-1][0])
            if nm not in failed:
                failed.append(nm)
                where.append((f, nm))
    props = closure([x for x in where if not x[1].startswith("example")])
    (scratch / m["file"]).write_text(s)
    rec = {"definition": m["def"], "edit": f"{m['old']!r} -> {m['new']!r}", "claim": m["claim"],
           "failed": failed, "property_theorems_failed": props,
           "tightened": m.get("tightened", []), "note": m.get("note", "")}
    if m.get("log", True):
        with open(root / "seeded" / "LOG.jsonl", "a") as g:
            g.write(json.dumps(rec, ensure_ascii=False) + "\n")
    print("KILLED" if failed else "SURVIVED", m["def"], rec["edit"], failed[:4], props[:6])
