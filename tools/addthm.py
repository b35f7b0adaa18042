"""addthm.py C01 thm1,thm2 [note]: add theorems to a claim in MANIFEST.json, keeping its status and (by default) its note."""
import json, os, subprocess, sys
root = os.path.dirname(os.path.dirname(os.path.abspath(__file__)))
c = {c["property"]: c for c in json.load(open(os.path.join(root, "MANIFEST.json")))["claims"]}[sys.argv[1]]
t = c["theorems"] + [x for x in sys.argv[2].split(",") if x not in c["theorems"]]
note = sys.argv[3] if len(sys.argv) > 3 else c["note"]
subprocess.check_call(["python3", os.path.join(root, "tools", "claim.py"), "set", sys.argv[1], c["status"], ",".join(t), note])
