"""Maintain MANIFEST.json and properties.jsonl.

claim.py set C01 proved "thm1,thm2" "note"
claim.py prop '<json object>'      (add or update a property)
claim.py axioms                    (write lean check file listing all claimed theorems to stdout)
claim.py design axioms.txt         (rewrite the results section of DESIGN.md from MANIFEST.json and the output of that file)
"""
import json, sys, os, re
root = os.path.dirname(os.path.dirname(os.path.abspath(__file__)))
mf, pf = os.path.join(root, "MANIFEST.json"), os.path.join(root, "properties.jsonl")

def main():
    cmd = sys.argv[1]
    if cmd == "set":
        _, _, pid, status, thms, note = sys.argv
        m = json.load(open(mf))
        cl = {c["property"]: c for c in m["claims"]}
        cl[pid] = {"property": pid, "status": status, "theorems": [t for t in thms.split(",") if t], "note": note}
        m["claims"] = [cl[k] for k in sorted(cl, key=lambda k: int(k[1:]))]
        json.dump(m, open(mf, "w"), indent=1, ensure_ascii=False)
        open(mf, "a").write("\n")
    elif cmd == "prop":
        d = json.loads(sys.argv[2])
        ps = {}
        for line in open(pf):
            o = json.loads(line)
            ps[o["id"]] = o
        if d["id"] in ps:
            ps[d["id"]].update(d)
        else:
            ps[d["id"]] = d
        with open(pf, "w") as f:
            for k in sorted(ps, key=lambda k: int(k[1:])):
                f.write(json.dumps(ps[k], ensure_ascii=False) + "\n")
    elif cmd == "axioms":
        m = json.load(open(mf))
        print("import Verif")
        for c in m["claims"]:
            for t in c["theorems"]:
                print("#print axioms", t)
    elif cmd == "design":
        short = {"propext": "P", "Classical.choice": "C", "Quot.sound": "Q"}
        txt, ax = open(sys.argv[2]).read(), {}
        for t, a in re.findall(r"'([^']+)' depends on axioms: \[([^\]]*)\]", txt):
            ax[t] = "".join(short.get(x, x) for x in re.split(r"[,\s]+", a.strip()) if x)
        for t in re.findall(r"'([^']+)' does not depend on any axioms", txt):
            ax[t] = "none"
        titles = {o["id"]: o["title"] for o in map(json.loads, open(pf))}
        out = []
        for c in json.load(open(mf))["claims"]:
            out.append(f"* **{c['property']} {titles[c['property']]}** ({c['status']}). {c['note']}")
            for t in c["theorems"]:
                out.append(f"  - `{t.removeprefix('Verif.Props.')}` [{ax[t]}]")
        df = os.path.join(root, "DESIGN.md")
        d = open(df).read()
        a, z = "<!-- results:begin -->\n", "<!-- results:end -->"
        d = d[:d.index(a) + len(a)] + "\n".join(out) + "\n" + d[d.index(z):]
        open(df, "w").write(d)

main()
