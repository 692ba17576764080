import Verif.Arc.Proofs.Race5
/-!
# The accesses to items that a step of a call makes
-/

namespace Verif.Arc
open Verif.Spec (Side Slot Family Rng End)
open Verif.Rc
variable {α : Type}

theorem aG_sub {A T : List AT} (h : ∀ t ∈ A, t ∈ T) {b i : Nat} (ho : 0 < owners (aG A) b i) : 0 < owners (aG T) b i := by
  obtain ⟨g, h1, rfl, h2, h3⟩ := owners_pos' ho
  obtain ⟨t, h4, h5⟩ := List.mem_flatMap.1 h1
  exact owners_pos (mem_aG (h t h4) h5) h2 h3

section
variable {c : Conf α} {b s : Nat}

theorem own_ent {k : Nat} {en : Ent} (hk : c.get k = some en) (ho : 0 < owners (aG (entT en)) b s) : 0 < owners (aG c.T) b s :=
  aG_sub (fun _ ht => Conf.get_tok' hk ht) ho

theorem own_call {j : Nat} {cl : Call α} (hj : c.calls[j]? = some cl) (ho : 0 < owners (aG (callT cl)) b s) : 0 < owners (aG c.T) b s :=
  aG_sub (fun _ ht => Conf.call_tok hj ht) ho

/-! Whoever owns an item keeps its memory. -/

theorem mem_reg (B : c.BI) (hz : c.a.b.sk.zst = false) {r : Reg} (hr : .reg r ∈ c.T) (hn : 0 < r.span.num b s) :
    ∃ x, c.a.b.sk.node x = some (.alloc b) := by
  obtain ⟨h1, h2, h3⟩ := num_pos.1 hn
  have R := B.heap.regs r hr
  cases ha : r.alloc with
  | none =>
    have h3 : s < r.off + r.len := h3
    have h2 : r.off ≤ s := h2
    rw [R.2 (by omega) ha] at hz; cases hz
  | some x => exact ⟨x, by rw [R.1 x ha, ← h1]; rfl⟩

theorem mem_node (B : c.BI) (hz : c.a.b.sk.zst = false) {d : Nat} (h : Cov c.a.b.sk d b s) : ∃ x, c.a.b.sk.node x = some (.alloc b) := by
  obtain ⟨u, hu, hn⟩ := h
  obtain ⟨h1, h2, h3⟩ := num_pos.1 hn
  have Sh := B.heap.good.shape
  cases ha : u.alloc with
  | none =>
    have h3 : s < u.off + u.len := h3
    have h2 : u.off ≤ s := h2
    rw [Sh.dataMem d u hu (by omega) ha] at hz; cases hz
  | some x => exact ⟨x, by rw [Sh.dataAlloc d u x hu ha, ← h1]; rfl⟩

theorem own_task {ts : List ATask} {sp : Span} : AT.own sp ∉ ts.flatMap ataskT := by
  intro h
  obtain ⟨t, _, h⟩ := List.mem_flatMap.1 h
  cases t with
  | base t => cases t <;> simp [ataskT, taskT] at h
  | slice d g => simp [ataskT] at h
  | guard g => simp [ataskT] at h

/-- The items `into_mut` has collected. -/
theorem own_im {bh : Option Handle} {pc : Pc α} {a : Arena α} (hp : pcOK a bh pc) {sp : Span} (h : .own sp ∈ pcT pc) (hn : 0 < sp.num b s) :
    ∃ r : Reg, .reg (bare r) ∈ pcT pc ∧ (0 < r.len → r.alloc = none → a.b.sk.zst = true) ∧ 0 < r.span.num b s := by
  have key : ∀ (r : Reg) acc todo, ImOK a.b.sk r acc todo → sp ∈ acc → (0 < r.len → r.alloc = none → a.b.sk.zst = true) ∧ 0 < r.span.num b s := by
    rintro r acc todo ⟨h1, _, h3⟩ h
    refine ⟨h1, ?_⟩
    rw [← h3 b s]
    obtain ⟨rfl, h4, h5⟩ := num_pos.1 hn
    have := owners_pos h h4 h5
    omega
  cases pc with
  | imFg todo g r acc =>
    refine ⟨r, by simp [pcT], key r acc todo hp ?_⟩
    simp only [pcT, List.mem_cons, reduceCtorEq, List.mem_append, List.mem_map, AT.own.injEq, exists_eq_right, false_or] at h
    rcases h with h | ⟨f, _, h⟩
    · exact h
    · cases f <;> cases h
  | imGate g r acc =>
    refine ⟨r, by simp [pcT], key r acc [] hp ?_⟩
    simpa [pcT] using h
  | imOk r acc =>
    refine ⟨r, by simp [pcT], key r acc [] hp ?_⟩
    simpa [pcT] using h
  | _ => simp [pcT, frT] at h

theorem mem_call (B : c.BI) (hz : c.a.b.sk.zst = false) {j : Nat} {cl : Call α} (hj : c.calls[j]? = some cl)
    (ho : 0 < owners (aG (callT cl)) b s) : ∃ x, c.a.b.sk.node x = some (.alloc b) := by
  obtain ⟨g, h1, rfl, h2, h3⟩ := owners_pos' ho
  obtain ⟨t, h4, h5⟩ := List.mem_flatMap.1 h1
  have hn : 0 < g.num g.buf s := num_pos.2 ⟨rfl, h2, h3⟩
  cases t with
  | reg r =>
    cases List.mem_singleton.1 h5
    exact mem_reg B hz (Conf.call_tok hj h4) hn
  | own sp =>
    cases List.mem_singleton.1 h5
    rcases List.mem_append.1 h4 with h4 | h4
    · exact absurd h4 own_task
    · obtain ⟨r, h6, h7, h8⟩ := own_im (B.calls j cl hj).1 h4 hn
      have R := B.heap.regs _ (Conf.call_tok hj (List.mem_append_right _ h6))
      obtain ⟨h9, h10, h11⟩ := num_pos.1 h8
      cases ha : r.alloc with
      | none =>
        have h11 : s < r.off + r.len := h11
        have h10 : r.off ≤ s := h10
        rw [h7 (by omega) ha] at hz; cases hz
      | some x => exact ⟨x, by rw [R.1 x ha, ← h9]; rfl⟩
  | _ => cases h5

theorem mem_ent (B : c.BI) (hz : c.a.b.sk.zst = false) {k : Nat} {en : Ent} (hk : c.get k = some en)
    (ho : 0 < owners (aG (entT en)) b s) : ∃ x, c.a.b.sk.node x = some (.alloc b) := by
  obtain ⟨g, h1, rfl, h2, h3⟩ := owners_pos' ho
  obtain ⟨t, h4, h5⟩ := List.mem_flatMap.1 h1
  have hn : 0 < g.num g.buf s := num_pos.2 ⟨rfl, h2, h3⟩
  cases t with
  | reg r =>
    cases List.mem_singleton.1 h5
    exact mem_reg B hz (Conf.get_tok' hk h4) hn
  | own sp =>
    obtain ⟨h, m⟩ := en
    cases h <;> simp [entT] at h4
  | _ => cases h5

end

/-- Nobody owns the item. -/
structure Free (c : Conf α) (b s : Nat) : Prop where
  node : ∀ y n, c.a.b.sk.node y = some n → ¬ 0 < owners n.spans b s
  ent : ∀ k en, c.get k = some en → ¬ 0 < owners (aG (entT en)) b s
  call : ∀ (i : Nat) cl, c.calls[i]? = some cl → ¬ 0 < owners (aG (callT cl)) b s

theorem Free.of_num {c : Conf α} {b s : Nat} (B : c.BI) (h : num (c.a.b.slot b s) = 0) : Free c b s := by
  have L := B.heap.good.ledger.o b s
  rw [h] at L
  refine ⟨fun y n hy ho => ?_, fun k en hk ho => ?_, fun i cl hi ho => ?_⟩
  · have h1 := nsum_le hy (B.heap.good.ledger.lt hy) (fun n => owners n.spans b s)
    have : 0 < owners n.spans b s := ho
    omega
  · have := own_ent hk ho; omega
  · have := own_call hi ho; omega

theorem Free.of_mem {c : Conf α} {b s : Nat} (B : c.BI) (hz : c.a.b.sk.zst = false) (h : c.a.b.sk.mem b = false) : Free c b s := by
  have no : ¬ ∃ x, c.a.b.sk.node x = some (.alloc b) := by
    rintro ⟨x, hx⟩
    rw [B.heap.good.shape.allocMem x b hx hz] at h; cases h
  refine ⟨fun y n hy ho => no ?_, fun k en hk ho => no (mem_ent B hz hk ho), fun i cl hi ho => no (mem_call B hz hi ho)⟩
  rcases B.heap.only y n hy with hk | hk
  · obtain ⟨u, rfl⟩ := data_of_kind hk
    exact mem_node B hz ⟨u, hy, spans_span ho⟩
  · cases n <;> simp_all [Node.kind, Node.spans]

theorem Free.cov {c : Conf α} {b s : Nat} (B : c.BI) (F : Free c b s) {d : Nat} : ¬ Cov c.a.b.sk d b s := fun hc => by
  obtain ⟨y, n, _, hy, ho⟩ := nsum_pos (hc.owned B.heap)
  exact F.node y n hy ho

theorem Free.inf {v : VConf α} {b s e : Nat} {w wr : Bool} (B : v.c.BI) (F : Free v.c b s) (hb : b < v.c.a.b.sk.nbuf)
    (ha : v.c.a.b.sk.zst = false → ∀ x, v.c.a.b.sk.node x = some (.alloc b) → Kn v e x) : Inf w v e wr b s where
  lt := hb
  node y n hy ho := absurd ho (F.node y n hy)
  ent k en hk ho := absurd ho (F.ent k en hk)
  call i cl hi ho := absurd ho (F.call i cl hi)
  alloc := ha
  kent _ _ _ _ _ _ hc := absurd hc (F.cov B)
  kbor _ _ _ _ _ _ _ _ _ _ hc := absurd hc (F.cov B)
  kpc _ _ _ _ _ _ hc := absurd hc (F.cov B)

theorem sameState_refl (x : Slot α) : sameState x x = true := by cases x <;> rfl

section
variable {o : Ords} {v v' : VConf α} {i e : Nat} {cl cl' : Call α} {push : List Ent} {U R N : List AT} {V : View} {w wr : Bool} {b s : Nat}

namespace VStp
variable (S : VStp o v v' i cl cl' push U R N V) (B : v.c.BI) (B' : v'.c.BI) (ev : Evo v.c.a.b.sk v'.c.a.b.sk)
include S B B'

/-- Items that are touched are new, or belong to the call, or their memory does. -/
theorem touch (ht : touched v.c.a v'.c.a b s = true) :
    (v.c.a.b.sk.nbuf ≤ b ∧ b < v'.c.a.b.sk.nbuf ∧ v.c.a.b.slot b s = .absent) ∨
    (b < v.c.a.b.sk.nbuf ∧ 0 < owners (aG U) b s ∧ num (v'.c.a.b.slot b s) = 0 ∧
      (v.c.a.b.sk.zst = false → ∀ x, v.c.a.b.sk.node x = some (.alloc b) → x ∈ aS (N ++ entsT push))) ∨
    (b < v.c.a.b.sk.nbuf ∧ v.c.a.b.sk.mem b = true ∧ v'.c.a.b.sk.mem b = false) := by
  simp only [touched, Bool.or_eq_true, Bool.not_eq_true', Bool.and_eq_true] at ht
  have Sh := B.heap.good.shape
  by_cases hb : v.c.a.b.sk.nbuf ≤ b
  · have h1 := B.heap.bufs b s hb
    rcases ht with ht | ht
    · refine .inl ⟨hb, Nat.lt_of_not_le fun hb' => ?_, h1⟩
      rw [h1, B'.heap.bufs b s hb'] at ht; cases ht
    · exact absurd (Sh.memLt b ht.1) (Nat.not_lt.2 hb)
  · have hb' : b < v.c.a.b.sk.nbuf := Nat.lt_of_not_le hb
    rcases ht with ht | ht
    · rcases S.mv.slot b s with h | h | h
      · rw [h, sameState_refl] at ht; cases ht
      · exact absurd h hb
      · exact .inr (.inl ⟨hb', h⟩)
    · exact .inr (.inr ⟨hb', ht⟩)

include ev

/-- The call knows of all earlier accesses to the items it touches. -/
theorem before (F : Inf w v e wr b s) (ht : touched v.c.a v'.c.a b s = true) : e ∈ V := by
  rcases S.touch B B' ht with h | h | h
  · exact absurd F.lt (Nat.not_lt.2 h.1)
  · refine S.in_V (F.call i cl S.hi ?_)
    rw [aG_owners S.cT, aG_append, owners_append]; omega
  · obtain ⟨_, h1, h2⟩ := h
    have Sh := B.heap.good.shape
    have Sh' := B'.heap.good.shape
    have hz : v.c.a.b.sk.zst = false := by
      cases hz : v.c.a.b.sk.zst with
      | false => rfl
      | true => rw [Sh.memZst hz b] at h1; cases h1
    obtain ⟨x, hx⟩ := Sh.memAlloc b h1
    refine S.collect B hx ?_ (F.alloc hz x hx)
    cases hn : v'.c.a.b.sk.node x with
    | none => rfl
    | some n =>
      have := ev.alloc x b n hx hn
      subst this
      rw [Sh'.allocMem x b hn (by rw [ev.zst]; exact hz)] at h2; cases h2

/-- Who knows of the new access. -/
theorem fresh (hb : ∀ (j : Nat) clj k, v.c.calls[j]? = some clj → clj.borrow = some k → k < v.c.hs.length)
    (ht : touched v.c.a v'.c.a b s = true) : Inf w v' (v.log.length + 1) true b s := by
  have Sh := B.heap.good.shape
  have Sh' := B'.heap.good.shape
  rcases S.touch B B' ht with ⟨h1, h2, h3⟩ | ⟨h1, h2, h3, h4⟩ | ⟨h1, h2, h3⟩
  · have F : Free v.c b s := .of_num B (by rw [h3]; rfl)
    have me : v.log.length + 1 ∈ v'.cv i := S.cv_V (.inr rfl)
    refine ⟨h2, ?_, ?_, ?_, ?_, ?_, ?_, ?_⟩
    · intro y n' hn ho
      cases hy : v.c.a.b.sk.node y with
      | none =>
        rcases B'.heap.only y n' hn with hk | hk
        · obtain ⟨u, rfl⟩ := data_of_kind hk
          exact S.hold (S.mv.newData y u hy hn).1 (.inr rfl)
        · cases n' <;> simp_all [Node.kind, Node.spans]
      | some n =>
        exfalso
        refine F.node y n hy ?_
        rcases B.heap.only y n hy with hk | hk
        · obtain ⟨u, rfl⟩ := data_of_kind hk
          obtain ⟨u', rfl, h6, h7, h8, _, h9⟩ := ev.data y u _ hy hn
          exact Nat.lt_of_lt_of_le ho (spans_le h6 h7 h8 h9 b s)
        · cases n <;> simp [Node.kind] at hk
          rw [ev.alloc y _ _ hy hn] at ho
          exact ho
    · intro k en hk ho
      rcases S.get hk with h | ⟨h, _⟩
      · exact absurd ho (F.ent k en h)
      · exact .inl (S.hb_V h (.inr rfl))
    · intro j clj hj ho
      by_cases hij : j = i
      · subst hij; exact me
      · exact absurd ho (F.call j clj ((S.other hij).symm.trans hj))
    · intro hz x hx
      cases hy : v.c.a.b.sk.node x with
      | none => exact S.holds (S.mv.newAlloc x b hy hx).2 (.inr rfl)
      | some n =>
        exfalso
        rcases B.heap.only x n hy with hk | hk
        · obtain ⟨u, rfl⟩ := data_of_kind hk
          obtain ⟨u', h, _⟩ := ev.data x u _ hy hx
          cases h
        · cases n <;> simp [Node.kind] at hk
          have := ev.alloc x _ _ hy hx
          cases this
          exact absurd (Sh.allocLt x b hy) (Nat.not_lt.2 h1)
    · intro _ k en d hk hs hc
      rcases S.get hk with h | ⟨h, _⟩
      · exact absurd (hc.evo' ev (src_ok B h hs).1 Sh Sh') (F.cov B)
      · exact S.hb_V h (.inr rfl)
    · intro _ j clj k en d hj hbo hk hs hc
      by_cases hij : j = i
      · subst hij; exact me
      · rcases S.get hk with h | ⟨h, _⟩
        · exact absurd (hc.evo' ev (src_ok B h hs).1 Sh Sh') (F.cov B)
        · exact absurd (hb j clj k ((S.other hij).symm.trans hj) hbo) (Nat.not_lt.2 h)
    · intro _ j clj d hj hd hc
      by_cases hij : j = i
      · subst hij; exact me
      · have hj' := (S.other hij).symm.trans hj
        exact absurd (hc.evo' ev (key_ok B hj' hd) Sh Sh') (F.cov B)
  · refine (Free.of_num B' h3).inf B' (Nat.lt_of_lt_of_le h1 S.mv.nbuf) fun hz x hx => ?_
    rw [ev.zst] at hz
    refine S.hold (h4 hz x ?_) (.inr rfl)
    cases hy : v.c.a.b.sk.node x with
    | none => exact absurd (S.mv.newAlloc x b hy hx).1 (Nat.not_le.2 h1)
    | some n =>
      rcases B.heap.only x n hy with hk | hk
      · obtain ⟨u, rfl⟩ := data_of_kind hk
        obtain ⟨u', h, _⟩ := ev.data x u _ hy hx
        cases h
      · cases n <;> simp [Node.kind] at hk
        rw [ev.alloc x _ _ hy hx]
  · have hz : v'.c.a.b.sk.zst = false := by
      rw [ev.zst]
      cases hz : v.c.a.b.sk.zst with
      | false => rfl
      | true => rw [Sh.memZst hz b] at h2; cases h2
    refine (Free.of_mem B' hz h3).inf B' (Nat.lt_of_lt_of_le h1 S.mv.nbuf) fun hz x hx => ?_
    rw [Sh'.allocMem x b hx hz] at h3; cases h3

end VStp
end
end Verif.Arc
