"""Append mutation results (one JSON object per line), unless already there, to seeded/LOG.jsonl: log.py results.jsonl"""
import json, sys
seen = {(x['definition'], x['edit'], x.get('replaced'), x.get('by')) for x in map(json.loads, open('/verif/seeded/LOG.jsonl'))}
out = open('/verif/seeded/LOG.jsonl', 'a')
for l in open(sys.argv[1]):
    r = json.loads(l)
    if (r['definition'], r['edit'], r['old'], r['new']) in seen:
        continue
    c = r['claim']
    dep = [t for t in r['blocked'] if any(t.startswith(x) for x in c.replace(',', ' ').split())]
    out.write(json.dumps({
        'definition': r['definition'], 'file': 'lean/' + r['file'], 'edit': r['edit'],
        'replaced': r['old'], 'by': r['new'], 'claim': c,
        'build_failed': not r['ok_build'],
        'failed_declarations': r['failed'],
        'property_theorems_depending_on_them': dep,
        'tightened': r.get('tightened', [])}, ensure_ascii=False) + '\n')
