#!/usr/bin/env python3
"""Turn the raw results of mutation runs (outside /verif) into seeded/LOG.jsonl: mutlog.py r1.jsonl r2.jsonl ..."""
import json, sys
TIGHT = {'m10-26':'C52_constants','m10-27':'C52_constants','V07':'C61_exact','V09':'C61_exact','V11':'C61_exact','V15':'C61_exact','V17':'C61_exact','V18':'C61_exact','V19':'C61_exact',
 'P01':'C62_exact','S13':'C60 theorems','E40':'C19_undecided_else','A05':'C27_glob, C62_exact (argLetter)','K01':'C54_no_extension',
 'K13':'C55_document','Q05':'C52_helpers','G01':'C64_exact','G04':'C64_exact','G05':'C64_exact','G06':'C64_exact','G07':'C64_exact',
 'G09':'C64_exact','G10':'C64_skips_nested','m7-38':'C06_bytes','m7-43':'C06_white_space','Y03':'C55_document','Y04':'C55_document','Y07':'C55_document','Y11':'C63_written','Y58':'C23_clear, C22_refinement','Y71':'C36, C52 (specification lists the blanks itself)'}
EQUIV = {'m15-26':'the prover ran out of memory at C90_exact, which is false of the edited program','m15-27':'at first only the concrete example failed; C90_message was added and fails as well','m12-03':'equivalent edit: an end clause has one token','m10-24':'the definition was used only in an example with one entry; it has been removed from the model','m9-27':'outside of the claim: captures of brace patterns are only bounded (C73_bounds)','m9-28':'outside of the claim: captures of brace patterns are only bounded (C73_bounds)','m7-22':'equivalent edit: no observable difference','m7-23':'equivalent edit: no observable difference','m7-59':'equivalent edit: no observable difference','m7-73':'unobservable: the matcher does not terminate there','S06':'equivalent edit: no observable difference','E41':'equivalent edit: the cache is empty whenever it is refilled','E37':'equivalent edit: only a proof script noticed it'}
n = 0
with open('/verif/seeded/LOG.jsonl', 'w') as f:
    for p in sys.argv[1:]:
        for l in open(p):
            r = json.loads(l)
            base = r['id'].rstrip('b')
            rerun = r['id'].endswith('b')
            d = dict(id=r['id'], definition=f"{r['file']}:{r['definition']}", edit=f"{r['old']}  =>  {r['new']}", claim=r['claim'],
                     outcome='survived' if r['rc'] == 0 else 'killed',
                     failed=[x.split(':', 1)[1] + ' (' + x.split(':', 1)[0] + ')' for x in r['failed']] or r.get('badmods', []),
                     tightened=[])
            if r['rc'] == 0 and base in TIGHT: d['tightened'] = [TIGHT[base]]
            if base == 'm15-27': d['tightened'] = ['C90_message']
            if base in EQUIV: d['note'] = EQUIV[base]
            if r['id'].startswith('t1-'): d['note'] = 'program and template edited alike: both C61 and the template are taken to be wrong, the claims about the output must still fail'
            if r['id'].startswith('s1-'): d['note'] = 'the claim of C83 is evaluated on concrete texts with the edited converter and comes out false, so no proof of it exists for the edited program'
            if rerun: d['note'] = 'second run, after tightening: ' + TIGHT.get(base, '')
            f.write(json.dumps(d, ensure_ascii=False) + '\n'); n += 1
print(n)
