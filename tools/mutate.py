#!/usr/bin/env python3
"""Mutation testing of the theorems.

usage: mutate.py MUTANTS.json [--log]

MUTANTS.json is a list of {"module", "definition", "old", "new", "edit", "claim", "tightened"}.  Each mutant replaces `old` by
`new` in the module (a path below lean/, e.g. Verif/Model/Codec.lean) in a scratch copy.  The mutated module and all modules that
import it are elaborated one by one, and saved even if there are errors; a theorem "failed" if it has an error or
depends on a lemma that has one (it then depends on sorryAx).  With --log a line per mutant is appended to seeded/LOG.jsonl.

The unmutated module is checked the same way first.  If that has errors, nothing can be learnt from its mutants and they are
refused (BASELINE); a mutant whose edited definition does not type-check is refused as well (INVALID).  Neither is logged.
mutate.py --baseline MODULE... only checks the modules named.
Run `lake build` in lean/ first.
"""
import concurrent.futures, json, os, re, subprocess, sys

ROOT = os.path.join(os.path.dirname(os.path.abspath(__file__)), '..')
LEAN = os.path.join(ROOT, 'lean')
SCR = '/tmp/mut%d' % os.getpid()
JOBS = int(os.environ.get('JOBS', '3'))

def snapshot():
    global LEAN
    subprocess.run(['cp', '-r', LEAN, SCR], check=True)
    LEAN = SCR

def modules():
    res = {}
    for d, _, fs in os.walk(os.path.join(LEAN, 'Verif')):
        for f in fs:
            if f.endswith('.lean'):
                p = os.path.relpath(os.path.join(d, f), LEAN)
                res[p] = open(os.path.join(LEAN, p)).read()
    return res

def imports(src):
    return re.findall(r'^import (\S+)', src, re.M)

def path(mod):
    return mod.replace('.', '/') + '.lean'

# Elaborates a module and saves its environment even if there are errors (`lean -o` does not): a theorem with an error is then
# there with `sorryAx`.  Prints the lines of the errors, the theorems and whether they depend on sorryAx.
DRIVER = r"""
import Lean
open Lean Elab
unsafe def main (args : List String) : IO UInt32 := do
  let [file, mod, olean] := args | return 2
  initSearchPath (← findSysroot)
  enableInitializersExecution
  let src ← IO.FS.readFile file
  let ictx := Parser.mkInputContext src file
  let (header, pstate, msgs) ← Parser.parseHeader ictx
  let opts : Options := ({} : Options).setBool `Elab.async false
  let (env, msgs) ← processHeader header opts msgs ictx (mainModule := mod.toName)
  let s ← IO.processCommands ictx pstate (Command.mkState env msgs opts)
  let env := s.commandState.env
  for m in s.commandState.messages.toList do
    if m.severity == .error then
      IO.println s!"ERR {m.pos.line} {(← m.data.toString).replace "\n" " "}"
  let act : CoreM Unit := do
    for (n, c) in env.constants.map₂.toList do
      if c matches .thmInfo _ then
        IO.println s!"THM {n} {if (← collectAxioms n).contains ``sorryAx then "sorry" else "ok"}"
  let _ ← act.toIO { fileName := file, fileMap := ictx.fileMap, maxHeartbeats := 0 } { env }
  writeModule env olean
  return 0
"""

def affected(module, mods):
    aff = {module}
    changed = True
    while changed:
        changed = False
        for p, s in mods.items():
            if p not in aff and any(path(i) in aff for i in imports(s)):
                aff.add(p)
                changed = True
    order, seen = [], set()
    def visit(p):
        if p in seen or p not in aff:
            return
        seen.add(p)
        for i in imports(mods[p]):
            visit(path(i))
        order.append(p)
    for p in sorted(aff):
        visit(p)
    return order

def run(m, mods):
    src = mods[m['module']]
    if m['old'] is not None and src.count(m['old']) != 1:
        return None, 'old text occurs %d times' % src.count(m['old'])
    mods = dict(mods)
    if m['old'] is not None:
        mods[m['module']] = src.replace(m['old'], m['new'])
    order = affected(m['module'], mods)
    driver = os.path.join(SCR, 'Driver.lean')
    open(driver, 'w').write(DRIVER)
    lib = os.path.join(SCR, '.lake/build/lib/lean')
    olean = lambda p: os.path.join(lib, p[:-5] + '.olean')
    for p in order:
        os.path.exists(olean(p)) and os.rename(olean(p), olean(p) + '.orig')
    ok_of, where, bad, nerr, txt = {}, [], [], 0, ''
    # modules whose imports are ready are elaborated in parallel
    def one(p):
        f = os.path.join(SCR, p)
        open(f, 'w').write(mods[p])
        r = subprocess.run(['lake', 'env', 'lean', '--run', driver, f, p[:-5].replace('/', '.'), olean(p)],
                           cwd=SCR, capture_output=True, text=True)
        return p, r.returncode, r.stdout + r.stderr
    done, todo = set(), list(order)
    with concurrent.futures.ThreadPoolExecutor(JOBS) as ex:
        running = set()
        while todo or running:
            for p in list(todo):
                if all(path(i) not in order or path(i) in done for i in imports(mods[p])):
                    todo.remove(p)
                    running.add(ex.submit(one, p))
            fin, running = concurrent.futures.wait(running, return_when=concurrent.futures.FIRST_COMPLETED)
            for fu in fin:
                p, rc, out = fu.result()
                done.add(p)
                lines = mods[p].split('\n')
                if rc != 0 or not os.path.exists(olean(p)):
                    nerr += 1
                    bad.append('%s (not elaborated: %s)' % (p, out[-300:]))
                for l in out.splitlines():
                    if l.startswith('THM '):
                        _, n, v = l.split(' ')
                        ok_of[n] = v == 'ok'
                    elif l.startswith('ERR '):
                        nerr += 1
                        txt += p + ' ' + l[:400] + '\n'
                        for k in range(int(l.split(' ')[1]) - 1, -1, -1):
                            mm = re.match(r'(?:@\[[^\]]*\] )?(?:private |protected |noncomputable )*'
                                          r'(theorem|def|example|instance|lemma|structure|inductive|abbrev)\s*(\S*)', lines[k])
                            if mm:
                                w = mm.group(2) if mm.group(1) != 'example' else 'example'
                                if w not in where:
                                    where.append(w)
                                # an error outside a theorem or example of the mutated module: the mutant is not a program
                                if p == m['module'] and mm.group(1) not in ('theorem', 'lemma', 'example') and w not in bad:
                                    bad.append(w)
                                break
    for p in order:
        open(os.path.join(SCR, p), 'w').write(mods0[p])
        os.path.exists(olean(p) + '.orig') and os.rename(olean(p) + '.orig', olean(p))
    thms = [t for p in order if '/Props/' in p for t in re.findall(r'^theorem (C\d\d\w*)', mods[p], re.M)]
    failed = [t for t in thms if not ok_of.get('Poodle.Props.' + t, False)]
    ok = [t for t in thms if ok_of.get('Poodle.Props.' + t, False)]
    return (failed, ok, where, bad, nerr), txt

def baseline(module, mods):
    """None if the unmutated module and its importers check without errors, else what fails."""
    (failed, _, where, _, n), _ = run({'module': module, 'old': None}, mods)
    return None if not failed and n == 0 else (failed, where, n)

def main():
    global mods0
    if sys.argv[1] == '--baseline':
        snapshot()
        mods = mods0 = modules()
        for p in sys.argv[2:]:
            b = baseline(p, mods)
            print('clean' if b is None else 'BASELINE', p, '' if b is None else b, flush=True)
        return
    ms = json.load(open(sys.argv[1]))
    snapshot()
    mods = mods0 = modules()
    base = {}
    for m in ms:
        if m['module'] not in base:
            base[m['module']] = baseline(m['module'], mods)
        if base[m['module']] is not None:
            print('BASELINE', m['module'], base[m['module']], flush=True)
            continue
        res, txt = run(m, mods)
        if res is None:
            print('SKIP', m['edit'], txt)
            continue
        failed, ok, where, bad, _ = res
        if bad:
            print('INVALID', m['definition'], '|', m['edit'], '| errors in', ' '.join(bad), flush=True)
            continue
        print('==', m['definition'], '|', m['edit'])
        print('   claim :', m['claim'])
        print('   failed:', ' '.join(failed) or 'NONE')
        print('   ok    :', len(ok))
        print('   errors in:', ' '.join(where), flush=True)
        if '--log' in sys.argv:
            with open(os.path.join(ROOT, 'seeded', 'LOG.jsonl'), 'a') as f:
                f.write(json.dumps({'definition': m['definition'], 'edit': m['edit'], 'claim_broken': m['claim'],
                    'theorems_failed': failed, 'theorems_tightened': m.get('tightened', []),
                    'note': m.get('note', '')}) + '\n')

main()
