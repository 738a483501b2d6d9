"""List the axioms each theorem of MANIFEST.json depends on (run from /verif after `lake build`)."""
import json, os, re, subprocess, tempfile

claims = json.load(open("MANIFEST.json"))["claims"]
names = sorted({t for c in claims for t in c["theorems"]})
src = "import Verif\n" + "".join(f"#print axioms {t}\n" for t in names)
with tempfile.NamedTemporaryFile("w", suffix=".lean", delete=False) as f:
    f.write(src)
out = subprocess.run(["lake", "env", "lean", f.name], cwd="lean", capture_output=True, text=True).stdout
os.unlink(f.name)
out = re.sub(r"\n\s+", " ", out)
groups = {}
for line in out.splitlines():
    m = re.match(r"(?:.*: )?'(\S+)' (does not depend on any axioms|depends on axioms: \[(.*)\])", line)
    if m:
        groups.setdefault(m.group(3) or "none", []).append(m.group(1))
for k, v in sorted(groups.items()):
    print(f"{k}: {len(v)}")
    if len(v) < 40:
        print("   ", " ".join(v))
print("not listed:", sorted(set(names) - {t for v in groups.values() for t in v}))
