#!/usr/bin/env python3
"""usage: check_rfc.py SEED N   Compares Spec/Rfc with Python's zlib on N random streams: valid ones of all kinds
and flushes, truncated ones, corrupted ones, with bytes after the end.  Run in /verif; builds nothing but Spec/Rfc."""
import os, random, subprocess, sys, tempfile, zlib
random.seed(int(sys.argv[1])); N = int(sys.argv[2])
LEAN = r'''
import Verif.Spec.Rfc
open Zwt Zwt.Rfc
def test : IO Unit := do
  let t ← IO.FS.readFile "@DATA@"
  let mut n := 0
  let mut bad := 0
  let mut errs := 0
  let mut dones := 0
  for line in t.splitOn "\n" do
    if line == "" then continue
    match line.splitOn "|" with
    | [a, r] =>
      let inp : Bytes := ((a.splitOn " ").filterMap String.toNat?).map UInt8.ofNat
      match r.splitOn " " with
      | [o, e, x] =>
        let out : Bytes := ((o.splitOn ",").filterMap String.toNat?).map UInt8.ofNat
        let s := St.init.run inp
        n := n + 1
        if e == "1" then errs := errs + 1
        if x == "1" then dones := dones + 1
        let okOut := if e == "1" then out.isPrefixOf s.out else s.out == out
        unless okOut && (s.mode == Mode.bad) == (e == "1") && (s.mode == Mode.done) == (x == "1") do
          bad := bad + 1
          IO.println s!"MISMATCH len {inp.length} out {s.out.length} vs {out.length} mode {repr s.mode} {e} {x}"
      | _ => IO.println "parse"
    | _ => IO.println "parse2"
  IO.println s!"{n} tests, {errs} errs, {dones} done, {bad} bad"
#eval test
'''
def gen():
    k=random.randint(0,4)
    n=random.choice([0,1,5,30,80,300])
    if k==0: return bytes(random.getrandbits(8) for _ in range(n))
    if k==1: return bytes(random.choice(b'ab') for _ in range(n))
    if k==2: return (b'hello world '*100)[:n*3]
    if k==3: return bytes(int(random.gauss(80,8))%256 for _ in range(n*3))
    return bytes(random.choice(b'abcdefgh    ') for _ in range(n))
d0 = tempfile.mkdtemp()
f = open(os.path.join(d0, 'rt.txt'), 'w')
for t in range(N):
    d=gen()
    lvl=random.choice([0,1,6,9]); strat=random.choice([0,0,1,2,3,4])
    c=zlib.compressobj(lvl,zlib.DEFLATED,random.choice([9,12,15]),8,strat)
    out=b''
    pos=0
    while pos<len(d):
        m=random.randint(1,max(1,len(d)))
        out+=c.compress(d[pos:pos+m]); pos+=m
        out+=c.flush(random.choice([zlib.Z_PARTIAL_FLUSH,zlib.Z_SYNC_FLUSH,zlib.Z_FULL_FLUSH,zlib.Z_NO_FLUSH,zlib.Z_PARTIAL_FLUSH]))
    if random.random()<.5: out+=c.flush()
    if random.random()<.2: out+=b'junk'
    if random.random()<.4 and out:
        i=random.randrange(len(out)) if random.random()<.5 else random.randrange(min(40,len(out))); out=out[:i]+bytes([out[i]^(1<<random.randrange(8))])+out[i+1:]
    cut=random.randint(0,len(out)) if random.random()<.5 else len(out)
    out=out[:cut]
    o=zlib.decompressobj(15); res=b''; err=False
    for b in out:
        try: res+=o.decompress(bytes([b]))
        except zlib.error as e: err=True;break
    f.write('%s %s %d %d\n'%(' '.join(map(str,out))or'-','' if 0 else '|'+','.join(map(str,res)),err,o.eof))
f.close()
src = os.path.join(d0, 'rt.lean')
open(src, 'w').write(LEAN.replace('@DATA@', f.name))
here = os.path.join(os.path.dirname(os.path.abspath(__file__)), '..', 'lean')
subprocess.run(['lake', 'build', 'Verif.Spec.Rfc'], cwd=here, check=True)
subprocess.run(['lake', 'env', 'lean', src], cwd=here, check=True)
