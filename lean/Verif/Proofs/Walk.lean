import Verif.Spec.Forest
import Verif.Props.Format
import Verif.Proofs.LLCompress

/-! The directory walk writes the selected tree. -/

namespace Zwt

variable {σ : Type}

theorem normLen_eq {w len : Nat} (_hw : w = 32 ∨ w = 64) (h : len + 8 < 2 ^ w) :
    normLen w len = (len / 8 + 1) * 8 := by
  have hl : len % 2 ^ w = len := Nat.mod_eq_of_lt (by omega)
  simp only [normLen, hl, Nat.shiftRight_eq_div_pow, Nat.shiftLeft_eq]
  exact Nat.mod_eq_of_lt (by omega)

theorem padding_ok {m norm len : Nat} (h1 : len < norm) (h2 : norm ≤ len + 8) :
    padding m norm len = .ok (List.replicate (norm - len) 0) := by
  unfold padding
  simp only [if_pos (Nat.le_of_lt h1)]
  rw [if_pos (by omega)]

theorem nameLen32_eq {name : Bytes} (h : name.length + 8 < 2 ^ 32) : nameLen32 name = name.length := by
  unfold nameLen32; exact Nat.mod_eq_of_lt (by simp only [U32]; omega)

theorem u64_eq {n : Nat} (h : n + 8 < 2 ^ 64) : u64 n = n := by
  unfold u64; exact Nat.mod_eq_of_lt (by simp only [U64]; omega)

theorem u64_lt (n : Nat) : u64 n < U64 := by
  unfold u64; exact Nat.mod_lt _ (by decide)

theorem nameLen32_lt (name : Bytes) : nameLen32 name < U32 := by
  unfold nameLen32; exact Nat.mod_lt _ (by decide)

/-- Padding of a length that fits. -/
theorem pad_len {w len : Nat} (hw : w = 32 ∨ w = 64) (h : len + 8 < 2 ^ w) :
    ∃ k, 0 < k ∧ k ≤ 8 ∧ normLen w len = len + k ∧
      padding (2 ^ w) (normLen w len) len = .ok (List.replicate k 0) := by
  have e := normLen_eq hw h
  refine ⟨(len / 8 + 1) * 8 - len, by omega, by omega, by omega, ?_⟩
  rw [padding_ok (by omega) (by omega), e]

theorem padding_size {n : Nat} (h : n + 8 < 2 ^ 64) :
    ∃ k, 0 < k ∧ k ≤ 8 ∧ norm64 (u64 n) = n + k ∧ u64 n = n ∧
      padding U64 (norm64 (u64 n)) (u64 n) = .ok (List.replicate k 0) := by
  have e : u64 n = n := u64_eq h
  rw [e]
  obtain ⟨k, h1, h2, h3, h4⟩ := pad_len (.inr rfl) h
  exact ⟨k, h1, h2, h3, rfl, h4⟩

theorem putItem_ok (w : W σ) (item : Bytes) {name : Bytes} (h : name.length + 8 < 2 ^ 32) :
    ∃ k, 0 < k ∧ k ≤ 8 ∧ norm32 (nameLen32 name) = name.length + k ∧
      w.putItem item name = .ok { w with out := w.out ++ [item, name, List.replicate k 0] } := by
  obtain ⟨k, h1, h2, h3, h4⟩ := pad_len (.inl rfl) h
  have h4' : padding U32 (norm32 name.length) name.length = .ok (List.replicate k 0) := h4
  refine ⟨k, h1, h2, ?_, ?_⟩
  · rw [nameLen32_eq h]; exact h3
  · simp only [W.putItem, nameLen32_eq h, h4', W.put, List.take_length, List.append_assoc,
      List.cons_append, List.nil_append]

/-- Fields of an item whose sizes are assigned. -/
theorem itemSized_fields {m name : Bytes} {mode kind size : Nat} (hm : m.length = 40)
    (hn : name.length + 8 < 2 ^ 32) (hk : kind < 2 ^ 8) :
    (itemSized m name mode kind size).length = 40 ∧
      itemFields (itemSized m name mode kind size) =
        ⟨u64 size, norm64 (u64 size), name.length, norm32 (nameLen32 name), uInt mode, kind⟩ := by
  have hb : norm64 (u64 size) < 2 ^ 64 := by
    unfold norm64 normLen; exact Nat.mod_lt _ (by decide)
  have hb2 : norm32 (nameLen32 name) < 2 ^ 32 := by
    unfold norm32 normLen; exact Nat.mod_lt _ (by decide)
  have := C03_item_roundtrip ⟨u64 size, norm64 (u64 size), nameLen32 name, norm32 (nameLen32 name),
    uInt mode, kind⟩ (m.drop 29) (by simp [hm]) (u64_lt _) hb (nameLen32_lt _) hb2 (uInt_lt _) hk
  rw [← nameLen32_eq hn]
  exact this

theorem itemPlain_fields {m name : Bytes} {mode kind : Nat} (hm : m.length = 40)
    (hn : name.length + 8 < 2 ^ 32) (hk : kind < 2 ^ 8) :
    (itemPlain m name mode kind).length = 40 ∧
      itemFields (itemPlain m name mode kind) =
        { itemFields m with nameLen := name.length, nameLenNorm := norm32 (nameLen32 name),
                            mode := uInt mode, kind := kind } := by
  have hb2 : norm32 (nameLen32 name) < 2 ^ 32 := by
    unfold norm32 normLen; exact Nat.mod_lt _ (by decide)
  have := C03_item_roundtrip { itemFields m with
      nameLen := nameLen32 name, nameLenNorm := norm32 (nameLen32 name), mode := uInt mode,
      kind := kind } (m.drop 29) (by simp [hm]) (itFileSize_lt m) (itFileSizeNorm_lt m)
    (nameLen32_lt _) hb2 (uInt_lt _) hk
  rw [← nameLen32_eq hn]
  exact this

/-- The read loop. -/
theorem readFile_ok (data : Bytes) (err : Bool) :
    (readFile data err).2 = err ∧ (err = false → (readFile data err).1.flatten = data) ∧
      ∀ b ∈ (readFile data err).1, b.length < U32 := by
  induction hn : data.length using Nat.strongRecOn generalizing data with
  | _ n ih =>
    subst hn
    rw [readFile]
    by_cases h : data.length < DEF_CHUNK_SIZE
    · rw [if_pos h]
      cases err <;> simp
      simp only [DEF_CHUNK_SIZE, U32] at *; omega
    · rw [if_neg h]
      obtain ⟨h1, h2, h3⟩ := ih (data.drop DEF_CHUNK_SIZE).length
        (by simp only [List.length_drop, DEF_CHUNK_SIZE] at *; omega) _ rfl
      refine ⟨h1, fun he => ?_, ?_⟩
      · simp only [List.flatten_cons, h2 he, List.take_append_drop]
      · intro b hb
        rcases List.mem_cons.mp hb with rfl | hb
        · simp only [List.length_take, DEF_CHUNK_SIZE, U32]; omega
        · exact h3 b hb

/-! ### The walk -/

/-- Uninitialised item records are 40 bytes of memory. -/
def Env.ok (env : Env) : Prop := ∀ k, (env.itemMem k).length = 40

/-- Nothing has happened that ends the traversal. -/
def W.live (w : W σ) : Prop := w.hasError = false ∧ w.shouldExit = false

/-- What a part of the traversal did, compared to the specification. -/
structure Ends (w w' : W σ) (s : Sel σ) : Prop where
  fs : w'.fs = s.fs
  shown : w'.shown = w.shown ++ s.shown
  err : w'.hasError = decide (s.status = .failed)
  ex : w'.shouldExit = decide (s.status = .stopped)
  out : s.status ≠ .failed → ∃ new, w'.out = w.out ++ new ∧ Encodes s.forest new.flatten ∧
    ∀ b ∈ new, b.length < U32

theorem iterate_flagged (env : Env) (flt : Filter σ) (n : Nat) (dir : Bytes) (es : List Entry)
    (w : W σ) (h : w.hasError = true ∨ w.shouldExit = true) :
    iterate (visit env flt (n+1) dir) es w = .ok w := by
  cases es with
  | nil => rfl
  | cons e es => simp [iterate, visit, h]

theorem iterate_cons {cb : Entry → W σ → Run (Int × W σ)} {e : Entry} {w w1 : W σ} {ret : Int}
    (h : cb e w = .ok (ret, w1)) (es : List Entry) :
    iterate cb (e :: es) w = if ret = EXIT_ALL then .ok w1 else iterate cb es w1 := by
  simp only [iterate, h]

/-- One entry that is shown to the filter. -/
theorem iterate_ask (env : Env) (flt : Filter σ) (n : Nat) (dir : Bytes) (e : Entry)
    (es : List Entry) (hd : e.name ≠ [46] ∧ e.name ≠ [46, 46]) (skip take : σ → Sel σ)
    (hskip : ∀ w : W σ, w.live →
      ∃ w', iterate (visit env flt (n+1) dir) es w = .ok w' ∧ Ends w w' (skip w.fs))
    (htake : ∀ w : W σ, w.live → ∃ ret w1 w',
      visitEntry env (fun path w => iterate (visit env flt n path) ((env.list path).getD []) w)
        dir e w = .ok (ret, w1) ∧
      (if ret = EXIT_ALL then .ok w1 else iterate (visit env flt (n+1) dir) es w1) = .ok w' ∧
        Ends w w' (take w.fs))
    (w : W σ) (hw : w.live) :
    ∃ w', iterate (visit env flt (n+1) dir) (e :: es) w = .ok w' ∧
      Ends w w' (askFilter flt dir e w.fs skip take) := by
  obtain ⟨hw1, hw2⟩ := hw
  have hdot : isDot e.name = false := by simp [isDot, hd.1, hd.2]
  have hl : (w.ask flt dir e).live := ⟨hw1, hw2⟩
  have hfs : (w.ask flt dir e).fs = (flt w.fs dir e).2 := rfl
  have hsh : (w.ask flt dir e).shown = w.shown ++ [(dir, e, (flt w.fs dir e).1)] := rfl
  have hout : (w.ask flt dir e).out = w.out := rfl
  have lift : ∀ {w' s}, Ends (w.ask flt dir e) w' s →
      Ends w w' { s with shown := (dir, e, (flt w.fs dir e).1) :: s.shown } := by
    intro w' s ⟨a, b, c, d, o⟩
    exact ⟨a, by rw [b, hsh]; simp, c, d, fun h => by rw [← hout]; exact o h⟩
  unfold askFilter
  by_cases h0 : (flt w.fs dir e).1 = 0
  · obtain ⟨ret, w1, w', h1, h2, h3⟩ := htake _ hl
    refine ⟨w', ?_, ?_⟩
    · have hv : visit env flt (n+1) dir e w = .ok (ret, w1) := by
        simp only [visit, hw1, hw2, hdot, h0, Bool.false_eq_true, or_self, if_false, ne_eq,
          not_true_eq_false, h1]
      rw [iterate_cons hv, h2]
    · have := lift h3
      rw [hfs] at this
      simpa [h0] using this
  · by_cases h7 : (flt w.fs dir e).1 = 387
    · refine ⟨{ w.ask flt dir e with shouldExit := true }, ?_, ?_⟩
      · have hv : visit env flt (n+1) dir e w =
            .ok (EXIT_ALL, { w.ask flt dir e with shouldExit := true }) := by
          simp only [visit, hw1, hw2, hdot, h7, Bool.false_eq_true, or_self, if_false]
          rfl
        rw [iterate_cons hv, if_pos rfl]
      · have : Ends (w.ask flt dir e) { w.ask flt dir e with shouldExit := true }
            ⟨.nil, (flt w.fs dir e).2, .stopped, []⟩ :=
          ⟨rfl, by simp, by simp [W.ask, hw1], by simp, fun _ => ⟨[], by simp, .nil, by simp⟩⟩
        have := lift this
        simpa [h0, h7] using this
    · obtain ⟨w', h1, h2⟩ := hskip _ hl
      refine ⟨w', ?_, ?_⟩
      · have hx : ¬ (flt w.fs dir e).1 = EXIT_ALL := h7
        have hv : visit env flt (n+1) dir e w = .ok (0, w.ask flt dir e) := by
          simp only [visit, hw1, hw2, hdot, h0, hx, Bool.false_eq_true, or_self, if_false, ne_eq,
            not_false_eq_true, if_true]
        rw [iterate_cons hv, if_neg (by decide), h1]
      · have := lift h2
        rw [hfs] at this
        simpa [h0, h7] using this

theorem joinPath_eq {dir name : Bytes} (h : (pathOf dir name).length ≤ 4094) :
    joinPath dir name = pathOf dir name := by
  unfold joinPath pathOf at *
  exact List.take_of_length_le h

/-- A file record with its content. -/
theorem asFile_good (w : W σ) {m name : Bytes} {mode : Nat} {content : Bytes} {pieces : List Bytes}
    (hm : m.length = 40) (hn : name.length + 8 < 2 ^ 32) (hmode : mode < 2 ^ 32)
    (hc : content.length + 8 < 2 ^ 64) (hp : pieces.flatten = content) :
    ∃ item p q, asFile w m name mode content.length pieces false =
        .ok (0, { w with out := w.out ++ ([item, name, p] ++ pieces ++ [q]) }) ∧
      item.length = 40 ∧ p.length ≤ 8 ∧ q.length ≤ 8 ∧
      ∀ rest bs, Encodes rest bs →
        Encodes (.file name mode content rest) (([item, name, p] ++ pieces ++ [q]).flatten ++ bs) := by
  obtain ⟨k, k1, k2, k3, k4⟩ := putItem_ok w (itemSized m name mode K_FILE content.length) hn
  obtain ⟨j, j1, j2, j3, j4, j5⟩ := padding_size hc
  obtain ⟨i1, i2⟩ := itemSized_fields (mode := mode) (kind := K_FILE) (size := content.length) hm hn
    (by decide)
  simp only [itemFields, ItemFields.mk.injEq] at i2
  obtain ⟨f1, f2, f3, f4, f5, f6⟩ := i2
  refine ⟨_, List.replicate k 0, List.replicate j 0, ?_, i1, ?_, ?_, ?_⟩
  · simp only [asFile, k4, j5]
    simp [W.put]
  · simp; omega
  · simp; omega
  · intro rest bs hr
    have e : ([itemSized m name mode K_FILE content.length, name, List.replicate k 0] ++ pieces ++
        [List.replicate j 0]).flatten ++ bs =
      itemSized m name mode K_FILE content.length ++ name ++ List.replicate k 0 ++ content ++
        List.replicate j 0 ++ bs := by
      rw [← hp]; simp
    rw [e]
    exact .file i1 f6 (by rw [f5]; exact uInt_of_lt hmode) f3 (by rw [f4, k3]; simp)
      (by rw [f1, j4]) (by rw [f2, j3]; simp) ⟨k, k1, k2, rfl⟩ ⟨j, j1, j2, rfl⟩ hr

/-- Something written, then the rest of the listing. -/
theorem Ends.add {w w1 w' : W σ} {s : Sel σ} {ws : List Bytes} {f : Forest → Forest}
    (h : Ends w1 w' s) (hs : w1.shown = w.shown) (ho : w1.out = w.out ++ ws)
    (hb : ∀ b ∈ ws, b.length < U32)
    (hf : ∀ rest bs, Encodes rest bs → Encodes (f rest) (ws.flatten ++ bs)) :
    Ends w w' (s.add f) := by
  obtain ⟨a, b, c, d, o⟩ := h
  refine ⟨a, by rw [b, hs]; rfl, c, d, fun h => ?_⟩
  obtain ⟨new, n1, n2, n3⟩ := o h
  refine ⟨ws ++ new, by rw [n1, ho]; simp, ?_, ?_⟩
  · rw [List.flatten_append]; exact hf _ _ n2
  · intro x hx
    rcases List.mem_append.mp hx with hx | hx
    · exact hb x hx
    · exact n3 x hx

theorem walk_good (env : Env) (henv : env.ok) (flt : Filter σ) {dir : Bytes} {es : List Entry}
    {f : Forest} (h : Mirror env dir es f) :
    ∃ n0, ∀ fuel, n0 ≤ fuel → ∀ w : W σ, w.live →
      ∃ w', iterate (visit env flt fuel dir) es w = .ok w' ∧ Ends w w' (select flt dir f w.fs) := by
  induction h with
  | @nil dir =>
    exact ⟨0, fun fuel _ w hw => ⟨w, rfl, rfl, by simp [select], by simp [select, hw.1],
      by simp [select, hw.2], fun _ => ⟨[], by simp, .nil, by simp⟩⟩⟩
  | @dot dir name ty es f hd _ ih =>
    obtain ⟨n0, ih⟩ := ih
    refine ⟨n0 + 1, fun fuel hf w hw => ?_⟩
    obtain ⟨n, rfl⟩ : ∃ n, fuel = n + 1 := ⟨fuel - 1, by omega⟩
    obtain ⟨w', h1, h2⟩ := ih (n+1) (by omega) w hw
    refine ⟨w', ?_, h2⟩
    have hdot : isDot name = true := by rcases hd with rfl | rfl <;> rfl
    have hv : visit env flt (n+1) dir ⟨name, ty⟩ w = .ok (0, w) := by
      simp only [visit, hw.1, hw.2, hdot, Bool.false_eq_true, or_self, if_false, if_true]
    rw [iterate_cons hv, if_neg (by decide), h1]
  | @file dir name mode content es f hfit hc hopen _ ih =>
    obtain ⟨n0, ih⟩ := ih
    refine ⟨n0 + 1, fun fuel hf w hw => ?_⟩
    obtain ⟨n, rfl⟩ : ∃ n, fuel = n + 1 := ⟨fuel - 1, by omega⟩
    simp only [select]
    refine iterate_ask env flt n dir _ es hfit.notDot _ _ (ih (n+1) (by omega)) ?_ w hw
    intro w hw
    obtain ⟨_, r2, r3⟩ := readFile_ok content false
    obtain ⟨item, p, q, a1, a2, a3, a4, a5⟩ := asFile_good w (henv w.out.length) hfit.name hfit.mode hc
      (r2 rfl)
    obtain ⟨w', h1, h2⟩ := ih (n+1) (by omega)
      { w with out := w.out ++ ([item, name, p] ++ (readFile content false).1 ++ [q]) } hw
    refine ⟨0, _, w', ?_, h1, h2.add rfl rfl ?_ a5⟩
    · have r1 : (readFile content false).2 = false := (readFile_ok content false).1
      simp only [visitEntry, visitFile, joinPath_eq hfit.path, hopen, r1]
      exact a1
    · have := hfit.name
      simp only [List.mem_append, List.mem_cons, List.not_mem_nil, or_false]
      rintro b (((rfl | rfl | rfl) | hb) | rfl)
      all_goals first
        | exact r3 b hb
        | simp only [U32]; omega
  | @bad dir name es f hfit hun _ ih =>
    obtain ⟨n0, ih⟩ := ih
    refine ⟨n0 + 1, fun fuel hf w hw => ?_⟩
    obtain ⟨n, rfl⟩ : ∃ n, fuel = n + 1 := ⟨fuel - 1, by omega⟩
    simp only [select]
    refine iterate_ask env flt n dir _ es hfit.notDot _ _ (ih (n+1) (by omega)) ?_ w hw
    intro w hw
    have fin : ∀ w' : W σ, w'.fs = w.fs → w'.shown = w.shown → w'.hasError = true →
        w'.shouldExit = w.shouldExit → Ends w w' ⟨.nil, w.fs, .failed, []⟩ := by
      intro w' h1 h2 h3 h4
      exact ⟨h1, by simp [h2], by simp [h3], by simp [h4, hw.2], fun h => absurd rfl h⟩
    have key : ∃ w', visitFile env (pathOf dir name) name w = .ok (EXIT_ALL, w') ∧ w'.fs = w.fs ∧
        w'.shown = w.shown ∧ w'.hasError = true ∧ w'.shouldExit = w.shouldExit := by
      rcases hun with hun | ⟨o, ho, hun⟩
      · exact ⟨{ w with hasError := true }, by simp [visitFile, hun], rfl, rfl, rfl, rfl⟩
      · cases hst : o.fstat with
        | none =>
          exact ⟨{ w with hasError := true }, by simp [visitFile, ho, hst], rfl, rfl, rfl, rfl⟩
        | some st =>
          obtain ⟨mode, size⟩ := st
          rw [hst] at hun
          have he : o.err = true := by simpa using hun
          obtain ⟨k, _, _, _, k4⟩ := putItem_ok w (itemSized (env.itemMem w.out.length) name mode
            K_FILE size) hfit.name
          have r1 : (readFile o.data o.err).2 = true := by rw [(readFile_ok o.data o.err).1, he]
          simp only [visitFile, ho, hst, asFile, k4, r1, if_true]
          exact ⟨_, rfl, rfl, rfl, rfl, rfl⟩
    obtain ⟨w', h1, h2, h3, h4, h5⟩ := key
    refine ⟨EXIT_ALL, w', w', ?_, by simp, fin w' h2 h3 h4 h5⟩
    simp only [visitEntry, joinPath_eq hfit.path, h1]
  | @link dir name mode target es f hfit ht hls hrl _ ih =>
    obtain ⟨n0, ih⟩ := ih
    refine ⟨n0 + 1, fun fuel hf w hw => ?_⟩
    obtain ⟨n, rfl⟩ : ∃ n, fuel = n + 1 := ⟨fuel - 1, by omega⟩
    simp only [select]
    refine iterate_ask env flt n dir _ es hfit.notDot _ _ (ih (n+1) (by omega)) ?_ w hw
    intro w hw
    obtain ⟨k, k1, k2, k3, k4⟩ := putItem_ok w (itemSized (env.itemMem w.out.length) name mode
      K_SYM_LINK target.length) hfit.name
    obtain ⟨j, j1, j2, j3, j4, j5⟩ := padding_size (n := target.length) (by omega)
    obtain ⟨i1, i2⟩ := itemSized_fields (mode := mode) (kind := K_SYM_LINK) (size := target.length)
      (henv w.out.length) hfit.name (by decide)
    simp only [itemFields, ItemFields.mk.injEq] at i2
    obtain ⟨f1, f2, f3, f4, f5, f6⟩ := i2
    obtain ⟨w', h1, h2⟩ := ih (n+1) (by omega)
      { w with out := w.out ++ [itemSized (env.itemMem w.out.length) name mode K_SYM_LINK
        target.length, name, List.replicate k 0, target, List.replicate j 0] } hw
    refine ⟨0, _, w', ?_, h1, h2.add rfl rfl ?_ ?_⟩
    · have e1 : target.take (target.length + 1) = target := List.take_of_length_le (by omega)
      simp only [visitEntry, visitLink, joinPath_eq hfit.path, hls, hrl, e1, Nat.lt_irrefl, if_false,
        k4, j5]
      simp [W.put]
    · have := hfit.name
      simp only [List.mem_cons, List.not_mem_nil, or_false]
      rintro b (rfl | rfl | rfl | rfl | rfl) <;> simp only [U32, List.length_replicate] <;> omega
    · intro rest bs hr
      have e : [itemSized (env.itemMem w.out.length) name mode K_SYM_LINK target.length, name,
          List.replicate k 0, target, List.replicate j 0].flatten ++ bs =
        itemSized (env.itemMem w.out.length) name mode K_SYM_LINK target.length ++ name ++
          List.replicate k 0 ++ target ++ List.replicate j 0 ++ bs := by simp
      rw [e]
      exact .link i1 f6 (by rw [f5]; exact uInt_of_lt hfit.mode) f3 (by rw [f4, k3]; simp)
        (by rw [f1, j4]) (by rw [f2, j3]; simp) ⟨k, k1, k2, rfl⟩ ⟨j, j1, j2, rfl⟩ hr
  | @dir dir name mode es es' sub f hfit hst hlist _ _ ih1 ih2 =>
    obtain ⟨n1, ih1⟩ := ih1
    obtain ⟨n2, ih2⟩ := ih2
    refine ⟨max n1 n2 + 1, fun fuel hf w hw => ?_⟩
    obtain ⟨n, rfl⟩ : ∃ n, fuel = n + 1 := ⟨fuel - 1, by omega⟩
    simp only [select]
    refine iterate_ask env flt n dir _ es hfit.notDot _ _ (ih2 (n+1) (by omega)) ?_ w hw
    intro w hw
    obtain ⟨k, k1, k2, k3, k4⟩ := putItem_ok w (itemPlain (env.itemMem w.out.length) name mode
      K_DIR_START) hfit.name
    obtain ⟨s1, s2⟩ := itemPlain_fields (mode := mode) (kind := K_DIR_START)
      (henv w.out.length) hfit.name (by decide)
    obtain ⟨e1, e2⟩ := itemPlain_fields (mode := mode) (kind := K_DIR_END)
      (henv w.out.length) hfit.name (by decide)
    simp only [itemFields, ItemFields.mk.injEq] at s2 e2
    obtain ⟨_, _, f3, f4, f5, f6⟩ := s2
    obtain ⟨_, _, _, _, _, g6⟩ := e2
    obtain ⟨w1, h1, h2⟩ := ih1 n (by omega)
      { w with out := w.out ++ [itemPlain (env.itemMem w.out.length) name mode K_DIR_START, name,
        List.replicate k 0] } hw
    have hv : visitEntry env
        (fun path w => iterate (visit env flt n path) ((env.list path).getD []) w)
        dir ⟨name, .dir⟩ w =
        .ok (0, w1.put (itemPlain (env.itemMem w.out.length) name mode K_DIR_END)) := by
      simp only [visitEntry, visitDir, joinPath_eq hfit.path, hst, k4, hlist, Option.getD_some, h1]
    have hname := hfit.name
    obtain ⟨a, b, c, d, o⟩ := h2
    by_cases hdone : (select flt (pathOf dir name) sub w.fs).status = .done
    · have hl1 : (w1.put (itemPlain (env.itemMem w.out.length) name mode K_DIR_END)).live :=
        ⟨by simp [W.put, c, hdone], by simp [W.put, d, hdone]⟩
      obtain ⟨w', g1, g2⟩ := ih2 (n+1) (by omega) _ hl1
      obtain ⟨a', b', c', d', o'⟩ := g2
      refine ⟨0, _, w', hv, g1, ?_⟩
      have efs : (w1.put (itemPlain (env.itemMem w.out.length) name mode K_DIR_END)).fs =
        (select flt (pathOf dir name) sub w.fs).fs := a
      rw [efs] at a' b' c' d' o'
      simp only [Sel.close, hdone]
      refine ⟨a', by rw [b']; simp only [W.put]; rw [b]; simp, c', d', fun hne => ?_⟩
      obtain ⟨new, p1, p2, p3⟩ := o (by simp [hdone])
      obtain ⟨new', q1, q2, q3⟩ := o' hne
      refine ⟨[itemPlain (env.itemMem w.out.length) name mode K_DIR_START, name,
        List.replicate k 0] ++ new ++ [itemPlain (env.itemMem w.out.length) name mode K_DIR_END] ++
        new', ?_, ?_, ?_⟩
      · rw [q1]; simp only [W.put]; rw [p1]; simp
      · have e : ([itemPlain (env.itemMem w.out.length) name mode K_DIR_START, name,
          List.replicate k 0] ++ new ++ [itemPlain (env.itemMem w.out.length) name mode K_DIR_END] ++
          new').flatten = itemPlain (env.itemMem w.out.length) name mode K_DIR_START ++ name ++
          List.replicate k 0 ++ new.flatten ++
          itemPlain (env.itemMem w.out.length) name mode K_DIR_END ++ new'.flatten := by simp
        rw [e]
        exact .dir s1 f6 (by rw [f5]; exact uInt_of_lt hfit.mode) f3 (by rw [f4, k3]; simp)
          ⟨k, k1, k2, rfl⟩ p2 e1 g6 q2
      · simp only [List.mem_append, List.mem_cons, List.not_mem_nil, or_false]
        rintro x ((((rfl | rfl | rfl) | hx) | rfl) | hx)
        all_goals first
          | exact p3 x hx
          | exact q3 x hx
          | (simp only [U32, List.length_replicate]; omega)
    · refine ⟨0, _, w1.put (itemPlain (env.itemMem w.out.length) name mode K_DIR_END), hv, ?_, ?_⟩
      · rw [if_neg (by decide)]
        apply iterate_flagged
        show w1.hasError = true ∨ w1.shouldExit = true
        rw [c, d]
        cases hs : (select flt (pathOf dir name) sub w.fs).status <;> simp_all
      · have hclose : (select flt (pathOf dir name) sub w.fs).close name mode (select flt dir f) =
            { select flt (pathOf dir name) sub w.fs with
              forest := .dir name mode (select flt (pathOf dir name) sub w.fs).forest .nil } := by
          unfold Sel.close
          cases hs : (select flt (pathOf dir name) sub w.fs).status <;> simp_all
        rw [hclose]
        refine ⟨a, b, c, d, fun hne => ?_⟩
        obtain ⟨new, p1, p2, p3⟩ := o hne
        refine ⟨[itemPlain (env.itemMem w.out.length) name mode K_DIR_START, name,
          List.replicate k 0] ++ new ++ [itemPlain (env.itemMem w.out.length) name mode K_DIR_END],
          ?_, ?_, ?_⟩
        · simp only [W.put]; rw [p1]; simp
        · have e : ([itemPlain (env.itemMem w.out.length) name mode K_DIR_START, name,
            List.replicate k 0] ++ new ++
            [itemPlain (env.itemMem w.out.length) name mode K_DIR_END]).flatten =
            itemPlain (env.itemMem w.out.length) name mode K_DIR_START ++ name ++
            List.replicate k 0 ++ new.flatten ++
            itemPlain (env.itemMem w.out.length) name mode K_DIR_END ++ [] := by simp
          rw [e]
          exact .dir s1 f6 (by rw [f5]; exact uInt_of_lt hfit.mode) f3 (by rw [f4, k3]; simp)
            ⟨k, k1, k2, rfl⟩ p2 e1 g6 .nil
        · simp only [List.mem_append, List.mem_cons, List.not_mem_nil, or_false]
          rintro x (((rfl | rfl | rfl) | hx) | rfl)
          all_goals first
            | exact p3 x hx
            | (simp only [U32, List.length_replicate]; omega)
  | @other dir name es f hfit _ ih =>
    obtain ⟨n0, ih⟩ := ih
    refine ⟨n0 + 1, fun fuel hf w hw => ?_⟩
    obtain ⟨n, rfl⟩ : ∃ n, fuel = n + 1 := ⟨fuel - 1, by omega⟩
    simp only [select]
    refine iterate_ask env flt n dir _ es hfit.notDot _ _ (ih (n+1) (by omega)) ?_ w hw
    intro w hw
    obtain ⟨w', h1, h2⟩ := ih (n+1) (by omega) w hw
    exact ⟨0, w, w', rfl, h1, h2⟩

end Zwt
