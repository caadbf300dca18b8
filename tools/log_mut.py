import json,sys,os
L='/verif/seeded/LOG.jsonl'
done=set()
if os.path.exists(L): done={json.loads(x)['id'] for x in open(L) if x.strip()}
T=json.load(open(sys.argv[1])) if len(sys.argv)>1 else {}
for l in open('/tmp/mut/results.jsonl'):
    r=json.loads(l)
    if r['id'] in done: continue
    done.add(r['id'])
    o=dict(id=r['id'],definition=r['definition'],edit=r['edit'],claim_broken=r['claim'],
      proofs_that_stopped_checking=r['first_failures'],
      property_theorems_failed=[x.replace('DK2.','') for x in r['broken']],
      property_theorems_surviving=len(r['surviving']),
      tightened=T.get(r['id'],{}).get('tightened',[]),note=T.get(r['id'],{}).get('note',r['note'][:200]))
    open(L,'a').write(json.dumps(o)+'\n')
