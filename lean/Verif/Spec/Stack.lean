import Verif.Spec.FS

/-! Lengths of paths in a tree. -/

namespace Zwt

/-- Length of the longest path of a file, relative to the root of the tree (slashes between the
names). -/
def Forest.longest : Forest → Nat
  | .nil => 0
  | .file n _ _ r => max n.length r.longest
  | .link _ _ _ r => r.longest
  | .dir n _ s r => max (n.length + 1 + s.longest) r.longest
  | .other _ r => r.longest
  | .bad _ r => r.longest

end Zwt
