import Verif.Rc.Proofs.Drop
/-!
# What the counts mean

The counts of an `RcSlice`'s objects tell which other handles exist. One direction holds in
every state, the other one if no drop is pending.
-/

namespace Verif.Rc
open Verif.Spec (Side Slot Family Rng)
variable {α : Type}

/-- No drop is pending. -/
def Quiet (T : List Tok) : Prop := ∀ x, Tok.loose x ∉ T

section
variable {h : Heap α} {T : List Tok}

/-- Which tokens can hold slice data. -/
theorem Inv.tok_data (I : Inv h T) {x : Nat} (hk : h.sk.kind x = .data) (hm : x ∈ Ss T) :
    (∃ i, .strong x i ∈ T) ∨ .loose x ∈ T := by
  obtain ⟨t, ht, hm⟩ := List.mem_flatMap.1 hm
  cases t with
  | strong d i =>
    simp only [Tok.S, List.mem_cons, List.not_mem_nil, or_false] at hm
    rcases hm with rfl | rfl
    · exact .inl ⟨i, ht⟩
    · have := (I.toks _ ht).2.1; rw [hk] at this; cases this
  | weak d g =>
    simp only [Tok.S, List.mem_singleton] at hm; subst hm
    have := (I.toks _ ht).1; rw [hk] at this; cases this
  | loose y => simp only [Tok.S, List.mem_singleton] at hm; subst hm; exact .inr ht
  | reg r =>
    simp only [Tok.S, Option.mem_toList] at hm
    have := I.good.shape.kinds _ _ ((I.toks _ ht).1 x hm)
    rw [hk] at this; cases this

theorem Inv.tok_img (I : Inv h T) {x : Nat} (hk : h.sk.kind x = .img) (hm : x ∈ Ss T) :
    (∃ d, .strong d x ∈ T) ∨ .loose x ∈ T := by
  obtain ⟨t, ht, hm⟩ := List.mem_flatMap.1 hm
  cases t with
  | strong d i =>
    simp only [Tok.S, List.mem_cons, List.not_mem_nil, or_false] at hm
    rcases hm with rfl | rfl
    · have := (I.toks _ ht).1; rw [hk] at this; cases this
    · exact .inl ⟨d, ht⟩
  | weak d g =>
    simp only [Tok.S, List.mem_singleton] at hm; subst hm
    have := (I.toks _ ht).1; rw [hk] at this; cases this
  | loose y => simp only [Tok.S, List.mem_singleton] at hm; subst hm; exact .inr ht
  | reg r =>
    simp only [Tok.S, Option.mem_toList] at hm
    have := I.good.shape.kinds _ _ ((I.toks _ ht).1 x hm)
    rw [hk] at this; cases this

theorem Inv.tok_gmg (I : Inv h T) {x : Nat} (hk : h.sk.kind x = .gmg) (hm : x ∈ Ss T) :
    (∃ d, .weak d x ∈ T) ∨ .loose x ∈ T := by
  obtain ⟨t, ht, hm⟩ := List.mem_flatMap.1 hm
  cases t with
  | strong d i =>
    simp only [Tok.S, List.mem_cons, List.not_mem_nil, or_false] at hm
    rcases hm with rfl | rfl
    · have := (I.toks _ ht).1; rw [hk] at this; cases this
    · have := (I.toks _ ht).2.1; rw [hk] at this; cases this
  | weak d g => simp only [Tok.S, List.mem_singleton] at hm; subst hm; exact .inl ⟨d, ht⟩
  | loose y => simp only [Tok.S, List.mem_singleton] at hm; subst hm; exact .inr ht
  | reg r =>
    simp only [Tok.S, Option.mem_toList] at hm
    have := I.good.shape.kinds _ _ ((I.toks _ ht).1 x hm)
    rw [hk] at this; cases this

theorem Inv.tok_alloc (I : Inv h T) {x : Nat} (hk : h.sk.kind x = .alloc) (hm : x ∈ Ss T) :
    (∃ r, .reg r ∈ T ∧ r.alloc = some x) ∨ .loose x ∈ T := by
  obtain ⟨t, ht, hm⟩ := List.mem_flatMap.1 hm
  cases t with
  | strong d i =>
    simp only [Tok.S, List.mem_cons, List.not_mem_nil, or_false] at hm
    rcases hm with rfl | rfl
    · have := (I.toks _ ht).1; rw [hk] at this; cases this
    · have := (I.toks _ ht).2.1; rw [hk] at this; cases this
  | weak d g =>
    simp only [Tok.S, List.mem_singleton] at hm; subst hm
    have := (I.toks _ ht).1; rw [hk] at this; cases this
  | loose y => simp only [Tok.S, List.mem_singleton] at hm; subst hm; exact .inr ht
  | reg r =>
    simp only [Tok.S, Option.mem_toList] at hm
    exact .inl ⟨r, ht, hm⟩

/-- Somebody holds what is alive. -/
theorem Inv.holder (I : Inv h T) {x : Nat} {n : Node} (hx : h.sk.node x = some n) :
    (∃ y m, h.sk.node y = some m ∧ x ∈ m.srefs) ∨ x ∈ Ss T := by
  have h1 := I.good.ledger.strong_pos hx
  have h2 := I.good.ledger.s x
  by_cases h3 : 0 < (Ss T).count x
  · exact .inr (List.count_pos_iff.1 h3)
  · obtain ⟨y, m, _, hy, hp⟩ := nsum_pos (k := h.sk) (f := fun n => n.srefs.count x) (by omega)
    exact .inl ⟨y, m, hy, List.count_pos_iff.1 hp⟩

/-- Slice data is held, directly or through its parents, by a handle or a pending drop. -/
theorem Inv.data_held (I : Inv h T) (x : Nat) : ∀ {v : DataV}, h.sk.node x = some (.data v) →
    (∃ d i, .strong d i ∈ T ∧ (h.sk.lab d).up (h.sk.lab x)) ∨
    (∃ y w, .loose y ∈ T ∧ h.sk.node y = some (.data w) ∧ (h.sk.lab y).up (h.sk.lab x)) := by
  induction x using Nat.strongRecOn with
  | ind x ih =>
    intro v hx
    have hk : h.sk.kind x = .data := I.good.shape.kinds _ _ hx
    rcases I.holder hx with ⟨y, m, hy, hm⟩ | hm
    · have h1 := I.good.shape.ref_kind hy hm
      cases m with
      | data u =>
        rcases h1 with ⟨s, h1, _⟩ | h1
        · obtain ⟨a1, a2, _⟩ := I.good.shape.dataKid y u s x hy h1
          have hup : (h.sk.lab y).up (h.sk.lab x) := by rw [a2]; exact Lab.up_child _ _
          rcases ih y a1 hy with ⟨d, i, b1, b2⟩ | ⟨z, w, b1, b2, b3⟩
          · exact .inl ⟨d, i, b1, Lab.up_trans b2 hup⟩
          · exact .inr ⟨z, w, b1, b2, Lab.up_trans b3 hup⟩
        · rw [hk] at h1; cases h1.2
      | img u => rcases h1 with h1 | h1 <;> (rw [hk] at h1; cases h1.2)
      | gmg u => obtain ⟨s, h1⟩ := h1; rw [hk] at h1; cases h1.2
      | alloc b => exact absurd h1 id
    · rcases I.tok_data hk hm with ⟨i, h1⟩ | h1
      · exact .inl ⟨x, i, h1, Lab.up_refl _⟩
      · exact .inr ⟨x, v, h1, hx, Lab.up_refl _⟩

/-- A guard for `into_mut` is held by an `RcSlice` on the same subslice or below. -/
theorem Inv.img_held (I : Inv h T) (hq : Quiet T) {j : Nat} {w : ImgV} (hj : h.sk.node j = some (.img w)) :
    ∃ d i, .strong d i ∈ T ∧ (h.sk.lab j).up (h.sk.lab d) := by
  generalize hn : h.sk.next - j = n
  induction n using Nat.strongRecOn generalizing j w with
  | ind n ih =>
    have hk : h.sk.kind j = .img := I.good.shape.kinds _ _ hj
    rcases I.holder hj with ⟨y, m, hy, hm⟩ | hm
    · have h1 := I.good.shape.ref_kind hy hm
      cases m with
      | data u =>
        rcases h1 with ⟨s, _, h1⟩ | h1
        · rw [hk] at h1; cases h1
        · rw [hk] at h1; cases h1.2
      | img u =>
        rcases h1 with ⟨h1, _⟩ | h1
        · obtain ⟨a1, ⟨s, a2⟩, _⟩ := I.good.shape.imgPar y u j hy h1
          have hlt := I.good.ledger.lt hy
          obtain ⟨d, i, b1, b2⟩ := ih (h.sk.next - y) (by omega) hy rfl
          refine ⟨d, i, b1, Lab.up_trans ?_ b2⟩
          rw [a2]; exact Lab.up_child _ _
        · rw [hk] at h1; cases h1.2
      | gmg u => obtain ⟨s, h1⟩ := h1; rw [hk] at h1; cases h1.2
      | alloc b => exact absurd h1 id
    · rcases I.tok_img hk hm with ⟨d, h1⟩ | h1
      · refine ⟨d, j, h1, ?_⟩
        rw [(I.toks _ h1).2.2]; exact Lab.up_refl _
      · exact absurd h1 (hq _)

/-- A guard for `get_mut` is held by an `RcSlice` or `WeakSlice` on the same subslice or below. -/
theorem Inv.gmg_held (I : Inv h T) (hq : Quiet T) {j : Nat} {w : GmgV} (hj : h.sk.node j = some (.gmg w)) :
    (∃ d i, .strong d i ∈ T ∧ (h.sk.lab j).up (h.sk.lab d)) ∨ (∃ d g, .weak d g ∈ T ∧ (h.sk.lab j).up (h.sk.lab g)) := by
  generalize hn : h.sk.next - j = n
  induction n using Nat.strongRecOn generalizing j w with
  | ind n ih =>
    have hk : h.sk.kind j = .gmg := I.good.shape.kinds _ _ hj
    rcases I.holder hj with ⟨y, m, hy, hm⟩ | hm
    · have h1 := I.good.shape.ref_kind hy hm
      cases m with
      | data u =>
        rcases h1 with ⟨s, _, h1⟩ | h1
        · rw [hk] at h1; cases h1
        · rw [hk] at h1; cases h1.2
      | img u =>
        rcases h1 with h1 | ⟨h1, _⟩
        · rw [hk] at h1; cases h1.2
        · subst h1
          obtain ⟨d, i, b1, b2⟩ := I.img_held hq hy
          exact .inl ⟨d, i, b1, by rw [(I.good.shape.imgGmg y u hy).1]; exact b2⟩
      | gmg u =>
        obtain ⟨s, h1, _⟩ := h1
        obtain ⟨a1, a2, _⟩ := I.good.shape.gmgPar y u j s hy h1
        have hlt := I.good.ledger.lt hy
        have hup : (h.sk.lab j).up (h.sk.lab y) := by rw [a2]; exact Lab.up_child _ _
        rcases ih (h.sk.next - y) (by omega) hy rfl with ⟨d, i, b1, b2⟩ | ⟨d, i, b1, b2⟩
        · exact .inl ⟨d, i, b1, Lab.up_trans hup b2⟩
        · exact .inr ⟨d, i, b1, Lab.up_trans hup b2⟩
      | alloc b => exact absurd h1 id
    · rcases I.tok_gmg hk hm with ⟨d, h1⟩ | h1
      · exact .inr ⟨d, j, h1, Lab.up_refl _⟩
      · exact absurd h1 (hq _)

/-! ## `get_mut`, `into_mut` -/

/-- Another `RcSlice` on the same subslice, on one it was cut from, or on one cut from it. -/
def StrongConf (k : Skel) (l : Lab) (T : List Tok) : Prop :=
  ∃ d i, .strong d i ∈ T ∧ (l.up (k.lab d) ∨ (k.lab d).up l)

/-- A `WeakSlice` on the same subslice or on one cut from it. -/
def WeakConf (k : Skel) (l : Lab) (T : List Tok) : Prop := ∃ x g, .weak (some x) g ∈ T ∧ l.up (k.lab x)

variable {d i : Nat}

theorem Inv.data_two (I : Inv h (.strong d i :: T)) (hm : d ∈ Ss T) : 2 ≤ h.strong d := by
  have h1 := I.good.ledger.s d
  have h2 := List.count_pos_iff.2 hm
  simp only [Ss_cons, Tok.S, List.count_append, List.count_cons_self] at h1; omega

theorem Inv.img_two' (I : Inv h (.strong d i :: T)) (hm : i ∈ Ss T) : 2 ≤ h.strong i := by
  have h1 := I.good.ledger.s i
  have h2 := List.count_pos_iff.2 hm
  simp only [Ss_cons, Tok.S, List.count_append, List.count_cons_self, List.count_cons] at h1
  omega

theorem Inv.data_above (I : Inv h (.strong d i :: T)) {q : Nat} {w v : DataV} (hq : h.sk.node q = some (.data w))
    (hd : h.sk.node d = some (.data v)) (hu : (h.sk.lab q).up (h.sk.lab d)) (h1 : h.strong d = 1) :
    h.sk.lab q = h.sk.lab d := by
  have g0 : Good h (d :: (i :: Ss T)) (Ws T) (Gs T) := I.good
  rw [g0.top h1 hd hq hu]

/-- If neither the slice data nor the guard for `into_mut` is shared, there is no conflicting `RcSlice`. -/
theorem Inv.no_strong_conf (I : Inv h (.strong d i :: T)) (h1 : h.strong d = 1) (h2 : h.strong i = 1) :
    ¬ StrongConf h.sk (h.sk.lab d) T := by
  rintro ⟨d', i', ht, hc⟩
  obtain ⟨v, vi, hd, hi, hl⟩ := I.strong_live (List.mem_cons_self ..)
  obtain ⟨v', vi', hd', hi', hl'⟩ := I.strong_live (List.mem_cons_of_mem _ ht)
  have hd2 : d' ∈ Ss T := mem_Ss ht (by simp [Tok.S])
  have heq : h.sk.lab d' = h.sk.lab d → False := by
    intro e
    have := I.good.shape.dataUniq _ _ _ _ hd' hd e
    subst this
    have := I.data_two hd2; omega
  rcases hc with hc | hc
  · by_cases e : h.sk.lab d' = h.sk.lab d
    · exact heq e
    · obtain ⟨y, u, hy, hp⟩ := I.good.shape.img_ref hi hi' (by rw [← hl, ← hl']; exact hc) (by rw [← hl, ← hl']; exact Ne.symm e)
      have := I.img_two (i := i) (mem_Ss (List.mem_cons_self ..) (by simp [Tok.S])) hy hp
      omega
  · exact heq (I.data_above hd' hd hc h1)

/-- The guard for `get_mut` below forces a reference from its parent's. -/
theorem Inv.gmg_shared (I : Inv h T) {i g : Nat} {vi : ImgV} {vg : GmgV} (hi : h.sk.node i = some (.img vi))
    (hg : h.sk.node g = some (.gmg vg)) (hu : (h.sk.lab i).up (h.sk.lab g)) (hne : h.sk.lab i ≠ h.sk.lab g) :
    2 ≤ h.strong vi.gmg := by
  obtain ⟨e1, w, hw⟩ := I.good.shape.imgGmg i vi hi
  obtain ⟨y, u, s, hy, hp⟩ := I.good.shape.gmg_ref hw hg (by rw [e1]; exact hu) (by rw [e1]; exact hne)
  have h1 := I.good.ledger.s vi.gmg
  have hyi : y ≠ i := by rintro rfl; rw [hi] at hy; cases hy
  have h2 := nsum_le2 hy (I.good.ledger.lt hy) hi (I.good.ledger.lt hi) hyi (fun n => n.srefs.count vi.gmg)
  have h3 : 0 < (Node.gmg u).srefs.count vi.gmg := List.count_pos_iff.2 (by simp [Node.srefs, hp])
  have h4 : 0 < (Node.img vi).srefs.count vi.gmg := List.count_pos_iff.2 (by simp [Node.srefs])
  omega

/-- If neither the slice data nor the guard for `get_mut` is shared, there is no conflict. -/
theorem Inv.no_conf (I : Inv h (.strong d i :: T)) {vi : ImgV} (hi : h.sk.node i = some (.img vi)) (h1 : h.strong d = 1)
    (h2 : h.strong vi.gmg = 1) : ¬ StrongConf h.sk (h.sk.lab d) T ∧ ¬ WeakConf h.sk (h.sk.lab d) T := by
  obtain ⟨v, vi0, hd, hi0, hl⟩ := I.strong_live (List.mem_cons_self ..)
  rw [hi] at hi0; cases hi0
  obtain ⟨e1, w, hw⟩ := I.good.shape.imgGmg i vi hi
  constructor
  · rintro ⟨d', i', ht, hc⟩
    obtain ⟨v', vi', hd', hi', hl'⟩ := I.strong_live (List.mem_cons_of_mem _ ht)
    have hd2 : d' ∈ Ss T := mem_Ss ht (by simp [Tok.S])
    have heq : h.sk.lab d' = h.sk.lab d → False := by
      intro e
      have := I.good.shape.dataUniq _ _ _ _ hd' hd e
      subst this
      have := I.data_two hd2; omega
    rcases hc with hc | hc
    · by_cases e : h.sk.lab d' = h.sk.lab d
      · exact heq e
      · obtain ⟨f1, w', hw'⟩ := I.good.shape.imgGmg i' vi' hi'
        have := I.gmg_shared hi hw' (by rw [f1, ← hl, ← hl']; exact hc) (by rw [f1, ← hl, ← hl']; exact Ne.symm e)
        omega
    · exact heq (I.data_above hd' hd hc h1)
  · rintro ⟨x, g, ht, hc⟩
    obtain ⟨w', hw'⟩ := I.weak_live (List.mem_cons_of_mem _ ht)
    have hx := (I.toks _ (List.mem_cons_of_mem _ ht)).2.2 x rfl
    rw [hx.2.2.1] at hc
    by_cases e : h.sk.lab g = h.sk.lab d
    · have hgg : g = vi.gmg := I.good.shape.gmgUniq _ _ _ _ hw' hw (by rw [e1, e, hl])
      subst hgg
      have h3 := I.good.ledger.s vi.gmg
      have h4 := nsum_le hi (I.good.ledger.lt hi) (fun n => n.srefs.count vi.gmg)
      have h5 : 0 < (Node.img vi).srefs.count vi.gmg := List.count_pos_iff.2 (by simp [Node.srefs])
      have h6 : 0 < (Ss (.strong d i :: T)).count vi.gmg :=
        List.count_pos_iff.2 (mem_Ss (List.mem_cons_of_mem _ ht) (by simp [Tok.S]))
      omega
    · have := I.gmg_shared hi hw' (by rw [← hl]; exact hc) (by rw [← hl]; exact Ne.symm e)
      omega

theorem Quiet.tail {t : Tok} (hq : Quiet (t :: T)) : Quiet T := fun x hx => hq x (List.mem_cons_of_mem _ hx)

/-- Shared slice data means a conflicting `RcSlice`, if no drop is pending. -/
theorem Inv.conf_of_data (I : Inv h (.strong d i :: T)) (hq : Quiet (.strong d i :: T)) (h1 : h.strong d ≠ 1) :
    StrongConf h.sk (h.sk.lab d) T := by
  obtain ⟨v, vi, hd, hi, hl⟩ := I.strong_live (List.mem_cons_self ..)
  have hk : h.sk.kind d = .data := I.good.shape.kinds _ _ hd
  have hne : ¬ i = d := by rintro rfl; rw [hd] at hi; cases hi
  have h2 := I.good.ledger.s d
  have h3 := I.good.ledger.strong_pos hd
  simp only [Ss_cons, Tok.S, List.count_append, List.count_cons_self, List.count_cons, List.count_nil, beq_iff_eq,
    if_neg hne] at h2
  by_cases h4 : 0 < (Ss T).count d
  · have hm := List.count_pos_iff.1 h4
    obtain ⟨t, ht, hm⟩ := List.mem_flatMap.1 hm
    cases t with
    | strong d' i' =>
      simp only [Tok.S, List.mem_cons, List.not_mem_nil, or_false] at hm
      rcases hm with rfl | rfl
      · exact ⟨d, i', ht, .inl (Lab.up_refl _)⟩
      · have := (I.toks _ (List.mem_cons_of_mem _ ht)).2.1; rw [hk] at this; cases this
    | weak d' g =>
      simp only [Tok.S, List.mem_singleton] at hm; subst hm
      have := (I.toks _ (List.mem_cons_of_mem _ ht)).1; rw [hk] at this; cases this
    | loose y => exact absurd (List.mem_cons_of_mem _ ht) (hq _)
    | reg r =>
      simp only [Tok.S, Option.mem_toList] at hm
      have := I.good.shape.kinds _ _ ((I.toks _ (List.mem_cons_of_mem _ ht)).1 d hm)
      rw [hk] at this; cases this
  · obtain ⟨y, m, _, hy, hp⟩ := nsum_pos (k := h.sk) (f := fun n => n.srefs.count d) (by omega)
    have h5 := I.good.shape.ref_kind hy (List.count_pos_iff.1 hp)
    cases m with
    | data u =>
      rcases h5 with ⟨s, h5, _⟩ | h5
      · obtain ⟨a1, a2, _⟩ := I.good.shape.dataKid y u s d hy h5
        rcases I.data_held y hy with ⟨d', i', b1, b2⟩ | ⟨z, w, b1, _⟩
        · rcases List.mem_cons.1 b1 with e | b1
          · cases e
            rw [a2] at b2; exact absurd b2 (Lab.not_child_up _ _)
          · exact ⟨d', i', b1, .inr (Lab.up_trans b2 (by rw [a2]; exact Lab.up_child _ _))⟩
        · exact absurd b1 (hq _)
      · rw [hk] at h5; cases h5.2
    | img u => rcases h5 with h5 | h5 <;> (rw [hk] at h5; cases h5.2)
    | gmg u => obtain ⟨s, h5⟩ := h5; rw [hk] at h5; cases h5.2
    | alloc b => exact absurd h5 id

/-- So does a shared guard for `into_mut`. -/
theorem Inv.conf_of_img (I : Inv h (.strong d i :: T)) (hq : Quiet (.strong d i :: T)) (h1 : h.strong i ≠ 1) :
    StrongConf h.sk (h.sk.lab d) T := by
  obtain ⟨v, vi, hd, hi, hl⟩ := I.strong_live (List.mem_cons_self ..)
  have hk : h.sk.kind i = .img := I.good.shape.kinds _ _ hi
  have hne : ¬ d = i := by rintro rfl; rw [hd] at hi; cases hi
  have h2 := I.good.ledger.s i
  have h3 := I.good.ledger.strong_pos hi
  simp only [Ss_cons, Tok.S, List.count_append, List.count_cons, List.count_nil, beq_iff_eq, if_neg hne, if_true] at h2
  by_cases h4 : 0 < (Ss T).count i
  · have hm := List.count_pos_iff.1 h4
    obtain ⟨t, ht, hm⟩ := List.mem_flatMap.1 hm
    cases t with
    | strong d' i' =>
      simp only [Tok.S, List.mem_cons, List.not_mem_nil, or_false] at hm
      have h5 := I.toks _ (List.mem_cons_of_mem _ ht)
      rcases hm with rfl | rfl
      · have := h5.1; rw [hk] at this; cases this
      · exact ⟨d', i, ht, .inl (by rw [h5.2.2, hl]; exact Lab.up_refl _)⟩
    | weak d' g =>
      simp only [Tok.S, List.mem_singleton] at hm; subst hm
      have := (I.toks _ (List.mem_cons_of_mem _ ht)).1; rw [hk] at this; cases this
    | loose y => exact absurd (List.mem_cons_of_mem _ ht) (hq _)
    | reg r =>
      simp only [Tok.S, Option.mem_toList] at hm
      have := I.good.shape.kinds _ _ ((I.toks _ (List.mem_cons_of_mem _ ht)).1 i hm)
      rw [hk] at this; cases this
  · obtain ⟨y, m, _, hy, hp⟩ := nsum_pos (k := h.sk) (f := fun n => n.srefs.count i) (by omega)
    have h5 := I.good.shape.ref_kind hy (List.count_pos_iff.1 hp)
    cases m with
    | data u =>
      rcases h5 with ⟨s, _, h5⟩ | h5
      · rw [hk] at h5; cases h5
      · rw [hk] at h5; cases h5.2
    | img u =>
      rcases h5 with ⟨h5, _⟩ | h5
      · obtain ⟨a1, ⟨s, a2⟩, _⟩ := I.good.shape.imgPar y u i hy h5
        obtain ⟨d', i', b1, b2⟩ := I.img_held hq hy
        rw [a2] at b2
        rcases List.mem_cons.1 b1 with e | b1
        · cases e
          rw [hl] at b2; exact absurd b2 (Lab.not_child_up _ _)
        · exact ⟨d', i', b1, .inl (by rw [hl]; exact Lab.up_of_child b2)⟩
      · rw [hk] at h5; cases h5.2
    | gmg u => obtain ⟨s, h5⟩ := h5; rw [hk] at h5; cases h5.2
    | alloc b => exact absurd h5 id

/-- A shared guard for `get_mut` means some conflict, if no drop is pending. -/
theorem Inv.conf_of_gmg (I : Inv h (.strong d i :: T)) (hq : Quiet (.strong d i :: T)) {vi : ImgV}
    (hi : h.sk.node i = some (.img vi)) (h1 : h.strong vi.gmg ≠ 1) :
    StrongConf h.sk (h.sk.lab d) T ∨ WeakConf h.sk (h.sk.lab d) T := by
  obtain ⟨v, vi0, hd, hi0, hl⟩ := I.strong_live (List.mem_cons_self ..)
  rw [hi] at hi0; cases hi0
  obtain ⟨e1, w, hw⟩ := I.good.shape.imgGmg i vi hi
  have hk : h.sk.kind vi.gmg = .gmg := I.good.shape.kinds _ _ hw
  -- a `WeakSlice` of this family has slice data
  have weak : ∀ d' g, Tok.weak d' g ∈ (Tok.strong d i :: T) → (h.sk.lab d).up (h.sk.lab g) → WeakConf h.sk (h.sk.lab d) T := by
    intro d' g hm hu
    have hm' : Tok.weak d' g ∈ T := by
      rcases List.mem_cons.1 hm with e | hm
      · cases e
      · exact hm
    obtain ⟨_, a0, a1⟩ := I.toks _ hm
    cases d' with
    | none => exact absurd hu.1 (a0 rfl d v hd)
    | some x => exact ⟨x, g, hm', by rw [(a1 x rfl).2.2.1]; exact hu⟩
  have h2 := I.good.ledger.s vi.gmg
  have h3 := I.good.ledger.strong_pos hw
  by_cases h4 : 0 < (Ss (.strong d i :: T)).count vi.gmg
  · have hm := List.count_pos_iff.1 h4
    rcases I.tok_gmg hk hm with ⟨d', h5⟩ | h5
    · exact .inr (weak d' _ h5 (by rw [e1, hl]; exact Lab.up_refl _))
    · exact absurd h5 (hq _)
  · -- a reference from another object than `i`
    have hil := I.good.ledger.lt hi
    have hone : (Node.img vi).srefs.count vi.gmg = 1 := by
      simp only [Node.srefs, List.count_append, List.count_cons_self, List.count_nil]
      have : vi.parent.toList.count vi.gmg = 0 := by
        rw [List.count_eq_zero]; intro h
        simp only [Option.mem_toList] at h
        obtain ⟨_, _, vp, h⟩ := I.good.shape.imgPar i vi _ hi h
        rw [hw] at h; cases h
      omega
    have h5 := nsum_kill hi hil (fun n => n.srefs.count vi.gmg)
    simp only [hone] at h5
    have h7 : 0 < nsum { h.sk with node := upd h.sk.node i none } (fun n => n.srefs.count vi.gmg) := by dsimp only; omega
    obtain ⟨y, m, _, hy, hp⟩ := nsum_pos h7
    obtain ⟨hyi, hy⟩ := upd_none_some hy
    have h6 := I.good.shape.ref_kind hy (List.count_pos_iff.1 hp)
    cases m with
    | data u =>
      rcases h6 with ⟨s, _, h6⟩ | h6
      · rw [hk] at h6; cases h6
      · rw [hk] at h6; cases h6.2
    | img u =>
      rcases h6 with h6 | ⟨h6, _⟩
      · rw [hk] at h6; cases h6.2
      · refine absurd (I.good.shape.imgUniq _ _ _ _ hy hi ?_) hyi
        rw [← (I.good.shape.imgGmg y u hy).1, h6, e1]
    | gmg u =>
      obtain ⟨s, h6, _⟩ := h6
      obtain ⟨a1, a2, _⟩ := I.good.shape.gmgPar y u _ s hy h6
      rw [e1, ← hl] at a2
      have hup : (h.sk.lab d).up (h.sk.lab y) := by rw [a2]; exact Lab.up_child _ _
      rcases I.gmg_held hq hy with ⟨d', i', b1, b2⟩ | ⟨d', g', b1, b2⟩
      · rcases List.mem_cons.1 b1 with e | b1
        · cases e
          rw [a2] at b2; exact absurd b2 (Lab.not_child_up _ _)
        · exact .inl ⟨d', i', b1, .inl (Lab.up_trans hup b2)⟩
      · exact .inr (weak d' g' b1 (Lab.up_trans hup b2))
    | alloc b => exact absurd h6 id

/-! ## Items -/

theorem half_sub {r : Rng} {s : Side} : r.off ≤ (r.half s).off ∧ (r.half s).off + (r.half s).len ≤ r.off + r.len := by
  cases s <;> simp only [Rng.half, Rng.left, Rng.right] <;> omega

theorem at_sub {r : Rng} (p q : List Side) :
    (r.at p).off ≤ (r.at (q ++ p)).off ∧ (r.at (q ++ p)).off + (r.at (q ++ p)).len ≤ (r.at p).off + (r.at p).len := by
  induction q with
  | nil => simp
  | cons s q ih =>
    have := half_sub (r := r.at (q ++ p)) (s := s)
    simp only [List.cons_append, Rng.at]; omega

/-- A subslice lies inside what it was cut from. -/
theorem Shape.data_inside {k : Skel} (S : Shape k) {q x : Nat} {w v : DataV} (hq : k.node q = some (.data w))
    (hx : k.node x = some (.data v)) (hu : (k.lab q).up (k.lab x)) :
    v.buf = w.buf ∧ w.off ≤ v.off ∧ v.off + v.len ≤ w.off + w.len ∧ (v.alloc.isSome → w.alloc.isSome) := by
  obtain ⟨a1, a2, a3⟩ := S.dataFam q w hq
  obtain ⟨b1, b2, b3⟩ := S.dataFam x v hx
  obtain ⟨e, t, ht⟩ := hu
  rw [← e] at b1 b2 b3
  have h1 := at_sub (r := (k.fams (k.lab q).fam).rng) (k.lab q).path t
  rw [ht, ← a2, ← b2] at h1
  refine ⟨b1.trans a1.symm, h1.1, h1.2, ?_⟩
  rw [a3, b3]
  simp only at h1
  cases hp : (k.lab q).path with
  | nil =>
    intro h; simp only [Bool.and_eq_true] at h; simp [h.1]
  | cons s p =>
    have : (k.lab x).path.isEmpty = false := by rw [← ht, hp]; simp
    rw [this]
    intro h; simp only [Bool.false_or, Bool.and_eq_true, decide_eq_true_eq] at h
    have h2 : 0 < w.len := by omega
    simp [h.1, h2]

/-- The items of live slice data are there. -/
theorem Good.data_items {S W : List Nat} {G : List Span} (g : Good h S W G) {x : Nat} {v : DataV}
    (hx : h.sk.node x = some (.data v)) {j : Nat} (h1 : v.off ≤ j) (h2 : j < v.off + v.len) : ∃ a, h.slot v.buf j = .live a := by
  generalize hn : h.sk.next - x = n
  induction n using Nat.strongRecOn generalizing x v with
  | ind n ih =>
    have key : ∀ s, v.subOff s ≤ j → j < v.subOff s + v.subLen s → ∃ a, h.slot v.buf j = .live a := by
      intro s k1 k2
      cases hc : v.kids s with
      | none =>
        refine g.ledger.item_live' hx ?_
        have hsp : v.sub s ∈ (Node.data v).spans := by
          cases s <;> simp [Node.spans, DataV.ownSub, hc]
        exact owners_pos hsp (g := v.sub s) k1 k2
      | some c =>
        obtain ⟨a1, a2, vc, a3⟩ := g.shape.dataKid x v s c hx hc
        have hlt := g.ledger.lt a3
        have e1 := (g.shape.vok hx).kid g.shape.toAShape (a2 ▸ g.shape.vok a3)
        have e2 := e1.1
        simp only [DataV.span, DataV.sub, Span.mk.injEq] at e2
        obtain ⟨e2, e3, e4⟩ := e2
        have := ih (h.sk.next - c) (by omega) a3 (by omega) (by omega) rfl
        rw [e2] at this; exact this
    have hs : v.len >>> 1 ≤ v.len := by rw [Nat.shiftRight_eq_div_pow]; omega
    by_cases hj : j < v.off + (v.len >>> 1)
    · exact key .L (by simpa [DataV.subOff] using h1) (by simpa [DataV.subOff, DataV.subLen] using hj)
    · exact key .R (by simp only [DataV.subOff]; omega) (by simp only [DataV.subOff, DataV.subLen]; omega)

theorem Good.data_accessible {S W : List Nat} {G : List Span} (g : Good h S W G) {x : Nat} {v : DataV}
    (hx : h.sk.node x = some (.data v)) (hl : 0 < v.len) : h.accessible v.buf = true := by
  simp only [Heap.accessible]
  cases ha : v.alloc with
  | none => rw [g.shape.dataMem x v hx hl ha]; rfl
  | some a =>
    by_cases hz : h.sk.zst = true
    · rw [hz]; rfl
    · rw [g.shape.allocMem a _ (g.shape.dataAlloc x v a hx ha) (by simpa using hz)]; simp

theorem num_pos {b i : Nat} {g : Span} (h : 0 < g.num b i) : g.buf = b ∧ g.off ≤ i ∧ i < g.off + g.len := by
  unfold Span.num at h; split at h
  · assumption
  · omega

theorem owners_pos' {G : List Span} {b i : Nat} (h : 0 < owners G b i) : ∃ g ∈ G, g.buf = b ∧ g.off ≤ i ∧ i < g.off + g.len := by
  induction G with
  | nil => simp at h
  | cons x G ih =>
    rw [owners_cons] at h
    by_cases hx : 0 < x.num b i
    · exact ⟨x, List.mem_cons_self .., num_pos hx⟩
    · obtain ⟨g, hg, h⟩ := ih (by omega)
      exact ⟨g, List.mem_cons_of_mem _ hg, h⟩

/-- Every item that is there is in the range of a handle or of a pending drop. -/
theorem Inv.item_held (I : Inv h T) {b j : Nat} {a : α} (hs : h.slot b j = .live a) :
    (∃ x v, h.sk.node x = some (.data v) ∧ v.buf = b ∧ v.off ≤ j ∧ j < v.off + v.len) ∨
    (∃ r, .reg r ∈ T ∧ r.buf = b ∧ r.off ≤ j ∧ j < r.off + r.len) := by
  have h1 := I.good.ledger.o b j
  rw [hs] at h1
  simp only [num] at h1
  by_cases h2 : 0 < owners (Gs T) b j
  · obtain ⟨g, hg, e⟩ := owners_pos' h2
    obtain ⟨t, ht, hg⟩ := List.mem_flatMap.1 hg
    cases t with
    | reg r => simp only [Tok.G, List.mem_singleton] at hg; subst hg; exact .inr ⟨r, ht, e⟩
    | _ => cases hg
  · obtain ⟨x, n, _, hx, hp⟩ := nsum_pos (k := h.sk) (f := fun n => owners n.spans b j) (by omega)
    cases n with
    | data v =>
      refine .inl ⟨x, v, hx, ?_⟩
      have h3 := v.own_kid b j
      exact num_pos (g := v.span) (by omega)
    | _ => simp [Node.spans] at hp

/-- Memory that is allocated is held. -/
theorem Inv.mem_held (I : Inv h T) {b : Nat} (hm : h.sk.mem b = true) :
    ∃ a, h.sk.node a = some (.alloc b) ∧ ((∃ x v, h.sk.node x = some (.data v) ∧ v.alloc = some a ∧ v.buf = b) ∨
      (∃ r, .reg r ∈ T ∧ r.alloc = some a ∧ r.buf = b) ∨ .loose a ∈ T) := by
  obtain ⟨a, ha⟩ := I.good.shape.memAlloc b hm
  have hk : h.sk.kind a = .alloc := I.good.shape.kinds _ _ ha
  refine ⟨a, ha, ?_⟩
  rcases I.holder ha with ⟨y, m, hy, hmm⟩ | hmm
  · have h1 := I.good.shape.ref_kind hy hmm
    cases m with
    | data u =>
      rcases h1 with ⟨s, _, h1⟩ | ⟨h1, _⟩
      · rw [hk] at h1; cases h1
      · have := I.good.shape.dataAlloc y u a hy h1
        rw [ha] at this; cases this
        exact .inl ⟨y, u, hy, h1, rfl⟩
    | img u => rcases h1 with h1 | h1 <;> (rw [hk] at h1; cases h1.2)
    | gmg u => obtain ⟨s, h1⟩ := h1; rw [hk] at h1; cases h1.2
    | alloc b => exact absurd h1 id
  · rcases I.tok_alloc hk hmm with ⟨r, h1, h2⟩ | h1
    · have := (I.toks _ h1).1 a h2
      rw [ha] at this; cases this
      exact .inr (.inl ⟨r, h1, h2, rfl⟩)
    · exact .inr (.inr h1)

end

end Verif.Rc
