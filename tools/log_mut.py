"""log_mut.py OUT.jsonl: append the results printed by mutate.py to seeded/LOG.jsonl.
first_errors: declarations whose proof broke; theorems_failed: property theorems that depend on one of them."""
import json, sys
with open('/verif/seeded/LOG.jsonl', 'a') as f:
    for l in open(sys.argv[1]):
        d = json.loads(l)
        if d.get('invalid'):
            continue
        f.write(json.dumps({'definition': d['definition'], 'edit': d['edit'], 'claim': d['claim'], 'first_errors': d['broken'],
                            'theorems_failed': d['theorems_failed'], 'theorems_tightened': d.get('tightened', [])}, ensure_ascii=False) + '\n')
