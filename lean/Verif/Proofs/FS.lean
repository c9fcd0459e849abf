import Verif.Spec.FS

/-! Path resolution and recursive directory creation. -/

namespace Zwt

theorem splitPath_ne_nil (p : Bytes) : splitPath p ≠ [] := by
  cases p with
  | nil => simp [splitPath]
  | cons c cs =>
    simp only [splitPath]
    split
    · simp
    · split <;> simp

theorem splitPath_append (p q : Bytes) : splitPath (p ++ 47 :: q) = splitPath p ++ splitPath q := by
  induction p with
  | nil => simp [splitPath]
  | cons c cs ih =>
    simp only [List.cons_append, splitPath]
    split
    · simp [ih]
    · rw [ih]
      cases h : splitPath cs with
      | nil => exact absurd h (splitPath_ne_nil cs)
      | cons a as => simp

theorem splitPath_plain (n : Bytes) (h : 47 ∉ n) : splitPath n = [n] := by
  induction n with
  | nil => rfl
  | cons c cs ih =>
    simp only [List.mem_cons, not_or] at h
    simp only [splitPath, if_neg (Ne.symm h.1), ih h.2]

theorem pathBase_append (cwd : Loc) (p q : Bytes) (h : p ≠ []) :
    pathBase cwd (p ++ q) = pathBase cwd p := by
  cases p with
  | nil => exact absurd rfl h
  | cons a as => simp [pathBase]

/-! ### Walking through existing directories -/

/-- Resolution of the components passes through existing directories and links only, and arrives at
`d`; the numbers are the links allowed before and after. -/
inductive Walks (os : Os) (fs : FS) : Nat → Loc → List Bytes → Nat → Loc → Prop
  | nil {n cur} : Walks os fs n cur [] n cur
  | skip {n cur c cs m d} : searchable os fs cur = true → (c = [] ∨ c = [46]) →
      Walks os fs n cur cs m d → Walks os fs n cur (c :: cs) m d
  | up {n cur cs m d} : searchable os fs cur = true →
      Walks os fs n cur.dropLast cs m d → Walks os fs n cur ([46, 46] :: cs) m d
  | dir {n cur c cs m d mode} : searchable os fs cur = true → ¬ (c = [] ∨ c = [46]) →
      c ≠ [46, 46] → fs (cur ++ [c]) = some (.dir mode) →
      Walks os fs n (cur ++ [c]) cs m d → Walks os fs n cur (c :: cs) m d
  | link {n cur c cs m d t} : searchable os fs cur = true → ¬ (c = [] ∨ c = [46]) →
      c ≠ [46, 46] → fs (cur ++ [c]) = some (.link t) →
      Walks os fs n (pathBase cur t) (splitPath t ++ cs) m d → Walks os fs (n+1) cur (c :: cs) m d

/-- What follows a symbolic link. -/
def resolveNext (os : Os) (fs : FS) (follow : Bool) : Nat → Loc → List Bytes → Option Loc
  | 0 => fun _ _ => none
  | n+1 => resolve os fs follow n

theorem resolve_eq (os : Os) (fs : FS) (follow : Bool) (n : Nat) :
    resolve os fs follow n = resolveWith os fs follow (resolveNext os fs follow n) := by
  cases n <;> rfl

theorem resolve_nil (os : Os) (fs : FS) (follow : Bool) (n : Nat) (cur : Loc) :
    resolve os fs follow n cur [] = some cur := by
  rw [resolve_eq, resolveWith]

theorem resolve_cons (os : Os) (fs : FS) (follow : Bool) (n : Nat) (cur : Loc) (c : Bytes)
    (cs : List Bytes) : resolve os fs follow n cur (c :: cs) =
    if ¬ searchable os fs cur then none
    else if c = [] ∨ c = [46] then resolve os fs follow n cur cs
    else if c = [46, 46] then resolve os fs follow n cur.dropLast cs
    else
      match fs (cur ++ [c]) with
      | none => if cs.all (· = []) then some (cur ++ [c]) else none
      | some (.link t) =>
        if cs = [] ∧ ¬ follow then some (cur ++ [c])
        else resolveNext os fs follow n (pathBase cur t) (splitPath t ++ cs)
      | some _ => resolve os fs follow n (cur ++ [c]) cs := by
  rw [resolve_eq, resolveWith]
  rfl

theorem Walks.resolve {os : Os} {fs : FS} {n m : Nat} {cur d : Loc} {cs : List Bytes}
    (h : Walks os fs n cur cs m d) (follow : Bool) (rest : List Bytes) (hr : rest ≠ []) :
    Zwt.resolve os fs follow n cur (cs ++ rest) = Zwt.resolve os fs follow m d rest := by
  induction h with
  | nil => rfl
  | skip h1 h2 _ ih => rw [List.cons_append, resolve_cons, if_neg (by simp [h1]), if_pos h2, ih]
  | up h1 _ ih =>
    rw [List.cons_append, resolve_cons, if_neg (by simp [h1]), if_neg (by simp), if_pos rfl, ih]
  | dir h1 h2 h3 h4 _ ih =>
    rw [List.cons_append, resolve_cons, if_neg (by simp [h1]), if_neg h2, if_neg h3, h4]
    exact ih
  | link h1 h2 h3 h4 _ ih =>
    rw [List.cons_append, resolve_cons, if_neg (by simp [h1]), if_neg h2, if_neg h3, h4]
    simp only
    rw [if_neg (by simp [hr]), ← List.append_assoc]
    exact ih

/-- Arriving at the end. -/
theorem Walks.resolve_end {os : Os} {fs : FS} {n m : Nat} {cur d : Loc} {cs : List Bytes}
    (h : Walks os fs n cur cs m d) : Zwt.resolve os fs true n cur cs = some d := by
  induction h with
  | nil => exact resolve_nil ..
  | skip h1 h2 _ ih => rw [resolve_cons, if_neg (by simp [h1]), if_pos h2, ih]
  | up h1 _ ih => rw [resolve_cons, if_neg (by simp [h1]), if_neg (by simp), if_pos rfl, ih]
  | dir h1 h2 h3 h4 _ ih =>
    rw [resolve_cons, if_neg (by simp [h1]), if_neg h2, if_neg h3, h4]
    exact ih
  | link h1 h2 h3 h4 _ ih =>
    rw [resolve_cons, if_neg (by simp [h1]), if_neg h2, if_neg h3, h4]
    simp only
    rw [if_neg (by simp)]
    exact ih

theorem Walks.append {os : Os} {fs : FS} {n m k : Nat} {cur d e : Loc} {cs ds : List Bytes}
    (h : Walks os fs n cur cs m d) (h' : Walks os fs m d ds k e) :
    Walks os fs n cur (cs ++ ds) k e := by
  induction h with
  | nil => exact h'
  | skip h1 h2 _ ih => exact .skip h1 h2 (ih h')
  | up h1 _ ih => exact .up h1 (ih h')
  | dir h1 h2 h3 h4 _ ih => exact .dir h1 h2 h3 h4 (ih h')
  | link h1 h2 h3 h4 _ ih =>
    have := ih h'
    rw [List.append_assoc] at this
    exact .link h1 h2 h3 h4 this

/-- `fs'` has all directories and links of `fs`. -/
def Keeps (fs fs' : FS) : Prop :=
  (∀ l m, fs l = some (.dir m) → fs' l = some (.dir m)) ∧
    ∀ l t, fs l = some (.link t) → fs' l = some (.link t)

theorem Keeps.refl (fs : FS) : Keeps fs fs := ⟨fun _ _ h => h, fun _ _ h => h⟩

theorem Keeps.trans {a b c : FS} (h : Keeps a b) (h' : Keeps b c) : Keeps a c :=
  ⟨fun l m x => h'.1 l m (h.1 l m x), fun l m x => h'.2 l m (h.2 l m x)⟩

theorem Keeps.searchable {fs fs' : FS} (h : Keeps fs fs') {os : Os} {l : Loc}
    (hs : Zwt.searchable os fs l = true) : Zwt.searchable os fs' l = true := by
  simp only [Zwt.searchable] at hs
  split at hs
  · rename_i m hm
    simp only [Zwt.searchable, h.1 _ _ hm]
    exact hs
  · simp at hs

theorem Keeps.put {fs : FS} {l : Loc} (hl : fs l = none) (n : Node) : Keeps fs (fs.put l n) := by
  constructor <;>
  · intro l' m h
    simp only [FS.put]
    by_cases h' : l' = l
    · rw [h', hl] at h; simp at h
    · rw [if_neg h']; exact h

/-- Changing a file. -/
theorem Keeps.putFile {fs : FS} {l : Loc} {m : Nat} {c : Bytes} (hl : fs l = some (.file m c))
    (n : Node) : Keeps fs (fs.put l n) := by
  constructor <;>
  · intro l' m h
    simp only [FS.put]
    by_cases h' : l' = l
    · rw [h', hl] at h; simp at h
    · rw [if_neg h']; exact h

theorem Walks.mono {os : Os} {fs fs' : FS} (hk : Keeps fs fs') {n m : Nat} {cur d : Loc}
    {cs : List Bytes} (h : Walks os fs n cur cs m d) : Walks os fs' n cur cs m d := by
  induction h with
  | nil => exact .nil
  | skip h1 h2 _ ih => exact .skip (hk.searchable h1) h2 ih
  | up h1 _ ih => exact .up (hk.searchable h1) ih
  | dir h1 h2 h3 h4 _ ih => exact .dir (hk.searchable h1) h2 h3 (hk.1 _ _ h4) ih
  | link h1 h2 h3 h4 _ ih => exact .link (hk.searchable h1) h2 h3 (hk.2 _ _ h4) ih

theorem resolveNext_walks (os : Os) (fs : FS) (n : Nat) (cur d : Loc) (cs : List Bytes)
    (h : resolveNext os fs true n cur cs = some d)
    (ih : ∀ k, k < n → ∀ cur cs, resolve os fs true k cur cs = some d →
      ∃ m, Walks os fs k cur cs m d) :
    ∃ k m, n = k + 1 ∧ Walks os fs k cur cs m d := by
  cases n with
  | zero => simp [resolveNext] at h
  | succ k =>
    obtain ⟨m, hm⟩ := ih k (by omega) cur cs h
    exact ⟨k, m, rfl, hm⟩

/-- A path that leads to a directory walks there. -/
theorem resolve_walks (os : Os) (fs : FS) (d : Loc) (mode : Nat) (hd : fs d = some (.dir mode))
    (n : Nat) : ∀ cur cs, resolve os fs true n cur cs = some d → ∃ m, Walks os fs n cur cs m d := by
  induction n using Nat.strongRecOn with
  | ind n ihn =>
    intro cur cs
    induction cs generalizing cur with
    | nil =>
      intro h
      rw [resolve_nil] at h
      cases h; exact ⟨n, .nil⟩
    | cons c cs ih =>
      intro h
      rw [resolve_cons] at h
      split at h
      · simp at h
      · rename_i h1
        simp only [Decidable.not_not] at h1
        split at h
        · rename_i h2
          obtain ⟨m, hm⟩ := ih _ h
          exact ⟨m, .skip h1 h2 hm⟩
        · rename_i h2
          split at h
          · rename_i h3
            obtain ⟨m, hm⟩ := ih _ h
            subst h3
            exact ⟨m, .up h1 hm⟩
          · rename_i h3
            split at h
            · rename_i h4
              split at h
              · simp only [Option.some.injEq] at h
                rw [h, hd] at h4; simp at h4
              · simp at h
            · rename_i t h4
              rw [if_neg (by simp)] at h
              obtain ⟨k, m, rfl, hm⟩ := resolveNext_walks os fs n _ d _ h ihn
              exact ⟨m, .link h1 h2 h3 h4 hm⟩
            · rename_i x hx h4
              obtain ⟨m, hm⟩ := ih _ h
              cases x with
              | dir md => exact ⟨m, .dir h1 h2 h3 h4 hm⟩
              | link t => exact absurd rfl (hx t)
              | file md c' =>
                cases hm with
                | nil => rw [hd] at h4; simp at h4
                | skip a => simp [searchable, h4] at a
                | up a => simp [searchable, h4] at a
                | dir a => simp [searchable, h4] at a
                | link a => simp [searchable, h4] at a

end Zwt
