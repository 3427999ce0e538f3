"""Writes seeded/LOG.jsonl from the results of the runs against edited models (one line per edit)."""
import json, os, sys
sys.path.insert(0, '/tmp/mut')
from muts import M
from tight import T
here = os.path.join(os.path.dirname(__file__), "..", "seeded")
res = {}
for f in ("/tmp/mut/res_old.jsonl", "/tmp/mut/res.jsonl"):
    if os.path.exists(f):
        for l in open(f):
            o = json.loads(l)
            res[o['i']] = o
out = []
files = dict(Types='Types', Regexes='Regexes')
for i, x in enumerate(M):
    o = res.get(i)
    if not o or 'model_error' in o:
        continue
    e = {"definition": f"Verif/{x['f']}.lean {x['d']}", "edit": x['edit'], "claim": x['claim'], "property": x['props'],
         "witness": x['wit'], "witness_after_edit": o['wit'],
         "proofs_that_failed": o['decls'], "theorems_failed": [t.replace('Tomllib.', '') for t in o['theorems']],
         "theorems_tightened": T.get(i, {}).get('tight', []), "note": T.get(i, {}).get('note', '')}
    out.append(json.dumps(e, ensure_ascii=False))
txt = "\n".join(out) + "\n"
# theorems that have got another name since
for a, b in (("C30_no_panic_partial", "C30_panic_after"), ("C45_invalid_tables_partial", "C45_invalid_tables")):
    txt = txt.replace(a, b)
open(os.path.join(here, "LOG.jsonl"), "w").write(txt)
print(len(out))
