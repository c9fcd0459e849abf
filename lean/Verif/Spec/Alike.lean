import Verif.Model.Walk

/-! When two archives of the same tree are the same but for memory that was never assigned. -/

namespace Zwt

/-- Two buffers written to an archive that differ only in bytes nothing was assigned to. -/
inductive Alike : Bytes → Bytes → Prop
  | same (b : Bytes) : Alike b b
  /-- record of a file or link: 29 bytes in common, the rest is reserved -/
  | sized {x m m' : Bytes} : x.length = 29 → m.length = 11 → m'.length = 11 → Alike (x ++ m) (x ++ m')
  /-- record of a directory (first or last): also the 16 bytes of the sizes are not assigned -/
  | dir {a a' x m m' : Bytes} : a.length = 16 → a'.length = 16 → x.length = 13 →
      (x.getLast? = some 1 ∨ x.getLast? = some 2) → m.length = 11 → m'.length = 11 →
      Alike (a ++ x ++ m) (a' ++ x ++ m')
  /-- link target of which the system gave less than the announced size -/
  | target {t m m' : Bytes} : m.length = m'.length → Alike (t ++ m) (t ++ m')

/-- … buffer by buffer. -/
inductive AllAlike : List Bytes → List Bytes → Prop
  | nil : AllAlike [] []
  | cons {b b' : Bytes} {l l' : List Bytes} : Alike b b' → AllAlike l l' → AllAlike (b :: l) (b' :: l')

/-- The same file system, seen by calls that find other content in uninitialised memory. -/
structure SameView (env env' : Env) : Prop where
  list : env.list = env'.list
  statMode : env.statMode = env'.statMode
  fopen : env.fopen = env'.fopen
  lstat : env.lstat = env'.lstat
  readlink : env.readlink = env'.readlink
  /-- memory of the size of a record -/
  item : ∀ k, (env.itemMem k).length = 40 ∧ (env'.itemMem k).length = 40
  /-- memory of the size of the link target -/
  target : ∀ k, (env.linkMem k).length = (env'.linkMem k).length

end Zwt
