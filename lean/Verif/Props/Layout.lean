import Verif.Spec.Layout
import Verif.Props.Walk
import Verif.Props.Session
import Verif.Props.FileRead

/-! C74: the archive format in bytes. -/

namespace Zwt

theorem le_succ (k n : Nat) : le (k + 1) n = UInt8.ofNat (n % 256) :: le k (n / 256) := by
  simp only [le, List.range_succ_eq_map, List.map_cons, List.map_map, Nat.pow_zero, Nat.div_one]
  congr 1
  apply List.map_congr_left
  intro i _
  simp only [Function.comp, Nat.pow_succ, Nat.mul_comm (256 ^ i), Nat.div_div_eq_div_mul]

theorem le_leEnc (k n : Nat) : le k n = leEnc k n := by
  induction k generalizing n with
  | zero => rfl
  | succ k ih => rw [le_succ, ih, leEnc]

theorem le_length (k n : Nat) : (le k n).length = k := by simp [le]

theorem record_itemBytes (a b c d m k : Nat) (r : Bytes) :
    record a b c d m k r = itemBytes ⟨a, b, c, d, m, k⟩ r := by
  simp only [record, itemBytes, le_leEnc]

theorem record_length (a b c d m k : Nat) (r : Bytes) : (record a b c d m k r).length = 29 + r.length := by
  simp only [record, List.length_append, le_length]

theorem record_fields (a b c d m k : Nat) (r : Bytes) :
    itFileSize (record a b c d m k r) = leDec (le 8 a) ∧
    itFileSizeNorm (record a b c d m k r) = leDec (le 8 b) ∧
    itNameLen (record a b c d m k r) = leDec (le 4 c) ∧
    itNameLenNorm (record a b c d m k r) = leDec (le 4 d) ∧
    itMode (record a b c d m k r) = leDec (le 4 m) ∧
    itKind (record a b c d m k r) = leDec (le 1 k) := by
  have l1 := le_length 8 a
  have l2 := le_length 8 b
  have l3 := le_length 4 c
  have l4 := le_length 4 d
  have l5 := le_length 4 m
  have l6 := le_length 1 k
  unfold record
  generalize le 8 a = xa at *
  generalize le 8 b = xb at *
  generalize le 4 c = xc at *
  generalize le 4 d = xd at *
  generalize le 4 m = xm at *
  generalize le 1 k = xk at *
  simp only [itFileSize, itFileSizeNorm, itNameLen, itNameLenNorm, itMode, itKind, List.append_assoc]
  refine ⟨?_, ?_, ?_, ?_, ?_, ?_⟩ <;> congr 1 <;>
    simp [List.take_append, List.drop_append, List.take_of_length_le, List.drop_of_length_le, *]

theorem leDec_le {k n : Nat} (h : n < 256 ^ k) : leDec (le k n) = n := by
  rw [le_leEnc]; exact leDec_leEnc k n h

/-- Every record is the record of its fields. -/
theorem record_of (m : Bytes) (hl : m.length = 40) :
    m = record (itFileSize m) (itFileSizeNorm m) (itNameLen m) (itNameLenNorm m) (itMode m) (itKind m)
      (m.drop 29) := by
  have key : ∀ (k : Nat) (bs : Bytes), bs.length = k → le k (leDec bs) = bs := by
    intro k bs h
    rw [le_leEnc, ← h]
    exact leEnc_leDec bs
  unfold record itFileSize itFileSizeNorm itNameLen itNameLenNorm itMode itKind
  rw [key 8 _ (by simp; omega), key 8 _ (by simp; omega), key 4 _ (by simp; omega),
    key 4 _ (by simp; omega), key 4 _ (by simp; omega), key 1 _ (by simp; omega)]
  have step : ∀ (i j : Nat), (m.drop i).take j ++ m.drop (i + j) = m.drop i := by
    intro i j
    rw [← List.drop_drop, List.take_append_drop]
  simp only [List.append_assoc]
  rw [step 28 1, step 24 4, step 20 4, step 16 4, step 8 8, List.take_append_drop]

/-- C74: what the other theorems call the encoding of a tree is the byte layout of the format. -/
theorem C74_layout (f : Forest) (t : Bytes) : Encodes f t ↔ Layout f t := by
  constructor
  · intro h
    induction h with
    | nil => exact .nil
    | @file name content item p q bs mode rest h1 h2 h3 h4 h5 h6 h7 hp hq _ ih =>
      obtain ⟨k, p1, p2, rfl⟩ := hp
      obtain ⟨j, q1, q2, rfl⟩ := hq
      simp only [List.length_replicate] at h5 h7
      have b1 := itNameLenNorm_lt item
      have b2 := itFileSizeNorm_lt item
      have b3 : itMode item < 2 ^ 32 := leDec_take_lt 4 _
      have e := record_of item h1
      rw [h2, h3, h4, h5, h6, h7] at e
      rw [e]
      rw [h5] at b1
      rw [h7] at b2
      rw [h3] at b3
      exact .file (by simp; omega) ⟨p1, p2⟩ ⟨q1, q2⟩ b1 b2 b3 ih
    | @link name content item p q bs mode rest h1 h2 h3 h4 h5 h6 h7 hp hq _ ih =>
      obtain ⟨k, p1, p2, rfl⟩ := hp
      obtain ⟨j, q1, q2, rfl⟩ := hq
      simp only [List.length_replicate] at h5 h7
      have b1 := itNameLenNorm_lt item
      have b2 := itFileSizeNorm_lt item
      have b3 : itMode item < 2 ^ 32 := leDec_take_lt 4 _
      have e := record_of item h1
      rw [h2, h3, h4, h5, h6, h7] at e
      rw [e]
      rw [h5] at b1
      rw [h7] at b2
      rw [h3] at b3
      exact .link (by simp; omega) ⟨p1, p2⟩ ⟨q1, q2⟩ b1 b2 b3 ih
    | @dir name item p e bs cs mode sub rest h1 h2 h3 h4 h5 hp _ h6 h7 _ ih1 ih2 =>
      obtain ⟨k, p1, p2, rfl⟩ := hp
      simp only [List.length_replicate] at h5
      have b1 := itNameLenNorm_lt item
      have b3 : itMode item < 2 ^ 32 := leDec_take_lt 4 _
      have e1 := record_of item h1
      have e2 := record_of e h6
      rw [h2, h3, h4, h5] at e1
      rw [h7] at e2
      rw [e1, e2]
      rw [h5] at b1
      rw [h3] at b3
      exact .dir (by simp; omega) ⟨p1, p2⟩ b1 b3 ih1 (by simp; omega) ih2
  · intro h
    induction h with
    | nil => exact .nil
    | @file name content r bs mode p q rest h1 hp hq hn hc hm _ ih =>
      obtain ⟨f1, f2, f3, f4, f5, f6⟩ := record_fields content.length (content.length + q) name.length
        (name.length + p) mode 0 r
      exact .file (by rw [record_length, h1]) (by rw [f6]; rfl) (by rw [f5, leDec_le (by omega)])
        (by rw [f3, leDec_le (by omega)]) (by rw [f4, leDec_le (by omega), List.length_replicate])
        (by rw [f1, leDec_le (by omega)]) (by rw [f2, leDec_le (by omega), List.length_replicate])
        ⟨p, hp.1, hp.2, rfl⟩ ⟨q, hq.1, hq.2, rfl⟩ ih
    | @link name content r bs mode p q rest h1 hp hq hn hc hm _ ih =>
      obtain ⟨f1, f2, f3, f4, f5, f6⟩ := record_fields content.length (content.length + q) name.length
        (name.length + p) mode 4 r
      exact .link (by rw [record_length, h1]) (by rw [f6]; rfl) (by rw [f5, leDec_le (by omega)])
        (by rw [f3, leDec_le (by omega)]) (by rw [f4, leDec_le (by omega), List.length_replicate])
        (by rw [f1, leDec_le (by omega)]) (by rw [f2, leDec_le (by omega), List.length_replicate])
        ⟨p, hp.1, hp.2, rfl⟩ ⟨q, hq.1, hq.2, rfl⟩ ih
    | @dir name r bs e cs mode p a b a' b' c' d' m' sub rest h1 hp hn hm _ he _ ih1 ih2 =>
      obtain ⟨_, _, f3, f4, f5, f6⟩ := record_fields a b name.length (name.length + p) mode 1 r
      obtain ⟨_, _, _, _, _, g6⟩ := record_fields a' b' c' d' m' 2 e
      exact .dir (by rw [record_length, h1]) (by rw [f6]; rfl) (by rw [f5, leDec_le (by omega)])
        (by rw [f3, leDec_le (by omega)]) (by rw [f4, leDec_le (by omega), List.length_replicate])
        ⟨p, hp.1, hp.2, rfl⟩ ih1 (by rw [record_length, he]) (by rw [g6]; rfl) ih2

example : Layout .nil [] ∧ ¬ Layout .nil [0] :=
  ⟨(C74_layout _ _).mp .nil, fun h => by have := (C74_layout _ _).mpr h; cases this⟩

section

variable {D : Deflater} {Z : Inflater} {plain : Bytes → Bytes} {σ : Type}

/-- C74, writing: archives of directories are the bytes 0, 0, 0, 0, 1, 0, 0, 0, 120 reserved bytes, and
the tree in the layout of the format. -/
theorem C74_directory_written (C : DeflateOK D plain) (env : Env) (henv : env.ok) (flt : Filter σ)
    {dir : Bytes} {es : List Entry} {f : Forest} (hl : env.list dir = some es)
    (hm : Mirror env dir es f) (fs : σ) (level : Int) (z : D.τ) (hz : D.init level = some z)
    (junk : Bytes) (hj : junk.length = 120) (hst : (select flt dir f fs).status ≠ .failed) :
    ∃ n0 log t b, (∀ fuel, n0 ≤ fuel →
        compressDir D env flt fuel .plain dir fs level junk = .ok (0, log)) ∧
      Layout (select flt dir f fs).forest t ∧
      plain log.flatten <+: [0, 0, 0, 0, 1, 0, 0, 0] ++ junk ++ t ∧ log.getLast? = some b ∧
      (b.length < 524288 → plain log.flatten = [0, 0, 0, 0, 1, 0, 0, 0] ++ junk ++ t) := by
  obtain ⟨n0, log, h1, t, h2, h3, b, h4, h5⟩ := C27_directory_archive C env henv flt hl hm fs level z hz
    junk hj hst
  exact ⟨n0, log, t, b, h1, (C74_layout _ _).mp h2, h3, h4, h5⟩

example := C74_directory_written queueDOK sampleEnv sampleEnv_ok
  (keepFilter fun _ e => e.name ≠ [117]) sampleList sampleMirror () 6 [] rfl (List.replicate 120 0)
  List.length_replicate (by decide)

/-- C74, writing: archives of files are the bytes 0, 0, 0, 0, 2, 0, 0, 0, 120 reserved bytes, and the
content. -/
theorem C74_file_written (C : DeflateOK D plain) (content : Bytes) (level : Int)
    (z : D.τ) (hz : D.init level = some z) (junk : Bytes) (hj : junk.length = 120) :
    ∃ n0 log b, (∀ fuel, n0 ≤ fuel →
        compressFile D fuel content false level junk = .ok (0, log)) ∧
      plain log.flatten <+: [0, 0, 0, 0, 2, 0, 0, 0] ++ junk ++ content ∧ log.getLast? = some b ∧
      (b.length < 524288 → plain log.flatten = [0, 0, 0, 0, 2, 0, 0, 0] ++ junk ++ content) := by
  obtain ⟨n0, ret, log, b, part, h1, h2, h3, h4, h5, h6, h7, h8⟩ := C69_read_errors_reported C content
    false level z hz junk hj
  have := h2.mpr rfl
  subst this
  have := h5 rfl
  subst this
  exact ⟨n0, log, b, h1, h6, h7, h8⟩

example := C74_file_written queueDOK [1, 2, 3] 6 [] rfl (List.replicate 120 0) List.length_replicate

theorem headerOf (k : UInt8) (junk rest : Bytes) (hj : junk.length = 120) :
    (([0, 0, 0, 0, k, 0, 0, 0] ++ junk ++ rest : Bytes)).take 128 = [0, 0, 0, 0, k, 0, 0, 0] ++ junk ∧
    hdrVersion ([0, 0, 0, 0, k, 0, 0, 0] ++ junk) = 0 ∧
    hdrKind ([0, 0, 0, 0, k, 0, 0, 0] ++ junk) = k.toNat := by
  refine ⟨?_, ?_, ?_⟩
  · exact List.take_left' (by simp [hj])
  · simp [hdrVersion, leDec]
  · simp [hdrKind, leDec]

/-- C74, reading: the bytes 0, 0, 0, 0, k, 0, 0, 0, 120 reserved bytes and some content are taken as a
directory if k is 1, as a file if k is 2 or 4, and not at all for other values of k. -/
theorem C74_read (C : InflateOK Z plain) (ok : AllocOracle) (hdr item : Bytes)
    (hh : hdr.length = 128) (hi : item.length = 40) (B bufSize : Nat)
    (hb : 0 < uInt bufSize ∧ uInt bufSize ≤ B) (ops : List SOp) (hops : ∀ op ∈ ops, op.sane B)
    (k : UInt8) (junk content : Bytes) (hj : junk.length = 120)
    (hp : plain (ops.map SOp.data).flatten = [0, 0, 0, 0, k, 0, 0, 0] ++ junk ++ content) :
    ∃ n0 rets l s, (∀ fuel, n0 ≤ fuel →
        sessRun ok fuel ops (Sess.create Z hdr item bufSize).1 (Sess.create Z hdr item bufSize).2 =
          .ok (rets, l, s)) ∧
      (k = 1 → s.log = [] ∨ s.log.head? = some .drStart) ∧
      (k = 2 ∨ k = 4 → ∃ chunks, s.log = (if chunks = [] then [] else .flStart :: chunks.map .flRead) ∧
        chunks.flatten <+: content ∧
        ((∀ r ∈ l.rets, r = Z_OK) → 0 < l.availOut ∨ C.Prompt (ops.map SOp.data).flatten →
          (ops.map SOp.data).flatten ≠ [] → chunks.flatten = content)) ∧
      (k ≠ 1 → k ≠ 2 → k ≠ 4 → s.log = []) := by
  obtain ⟨e1, e2, e3⟩ := headerOf k junk content hj
  have hlen : 128 ≤ (plain (ops.map SOp.data).flatten).length := by rw [hp]; simp [hj]
  have hdrop : (plain (ops.map SOp.data).flatten).drop 128 = content := by
    rw [hp]; exact List.drop_left' (by simp [hj])
  have hv : hdrVersion ((plain (ops.map SOp.data).flatten).take 128) = 0 := by rw [hp, e1, e2]
  have hk : hdrKind ((plain (ops.map SOp.data).flatten).take 128) = k.toNat := by rw [hp, e1, e3]
  by_cases k1 : k = 1
  · obtain ⟨n0, rets, l, s, chunks, evs, owed, h1, h2, h3, _⟩ := C17_directory_archive C ok hdr item hh
      hi B bufSize hb ops hops _ rfl hlen hv (by rw [hk, k1]; rfl)
    refine ⟨n0, rets, l, s, h1, fun _ => ?_, ?_, fun h => absurd k1 h⟩
    · rw [h3]
      split
      · exact .inl rfl
      · exact .inr rfl
    · rw [k1]; rintro (h | h) <;> exact absurd h (by decide)
  · by_cases k24 : k = 2 ∨ k = 4
    · obtain ⟨n0, rets, l, s, chunks, h1, h2, h3, h4, h5⟩ := C14_file_payload C ok hdr item hh hi B bufSize
        hb ops hops _ rfl hlen hv (by
          rw [hk]
          rcases k24 with rfl | rfl
          · exact .inl rfl
          · exact .inr rfl)
      rw [hdrop] at h4 h5
      refine ⟨n0, rets, l, s, h1, fun h => absurd h k1, fun _ => ⟨chunks, h2, h4, h5⟩, ?_⟩
      intro _ a2 a4
      rcases k24 with h | h
      · exact absurd h a2
      · exact absurd h a4
    · have hne : ∀ n : UInt8, k ≠ n → k.toNat ≠ n.toNat := fun n h h' => h (UInt8.toNat_inj.mp h')
      obtain ⟨n0, rets, l, s, h1, h2⟩ := C15_unknown_kind_inert C ok hdr item hh hi B bufSize hb ops hops _
        rfl hv (by
          rw [hk]
          exact ⟨hne 1 k1, hne 2 (fun h => k24 (.inl h)), hne 4 (fun h => k24 (.inr h))⟩)
      exact ⟨n0, rets, l, s, h1, fun h => absurd h k1, fun h => absurd h k24, fun _ _ _ => h2⟩

end

/-- A file `a` with the two bytes 7, 8 and mode 0644 in an archive, byte by byte. -/
example : Layout (.file [97] 0o644 [7, 8] .nil)
    ([2,0,0,0,0,0,0,0, 8,0,0,0,0,0,0,0, 1,0,0,0, 8,0,0,0, 0xA4,1,0,0, 0, 9,9,9,9,9,9,9,9,9,9,9,
      97, 0,0,0,0,0,0,0, 7, 8, 0,0,0,0,0,0] : Bytes) := by
  have := Layout.file (name := [97]) (content := [7, 8]) (r := List.replicate 11 9) (mode := 0o644)
    (p := 7) (q := 6) (by decide) (by decide) (by decide) (by decide) (by decide) (by decide) .nil
  have e : ([2,0,0,0,0,0,0,0, 8,0,0,0,0,0,0,0, 1,0,0,0, 8,0,0,0, 0xA4,1,0,0, 0, 9,9,9,9,9,9,9,9,9,9,9,
      97, 0,0,0,0,0,0,0, 7, 8, 0,0,0,0,0,0] : Bytes) = record 2 8 1 8 0o644 0 (List.replicate 11 9) ++
        [97] ++ List.replicate 7 0 ++ [7, 8] ++ List.replicate 6 0 ++ [] := by decide +kernel
  rw [e]
  exact this

end Zwt
