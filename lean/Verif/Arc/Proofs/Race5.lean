import Verif.Arc.Proofs.Race4
/-!
# Accesses to items are known to those who could make another one

For each access to an item: whoever owns the item knows of it, and if it was not just
reading then so does whoever could read the item.
-/

namespace Verif.Arc
open Verif.Spec (Side Slot Family Rng End)
open Verif.Rc
variable {α : Type}

/-- Who knows of access number `e` to item `s` of buffer `b`. -/
structure Inf (w : Bool) (v : VConf α) (e : Nat) (wr : Bool) (b s : Nat) : Prop where
  lt : b < v.c.a.b.sk.nbuf
  node : ∀ y n, v.c.a.b.sk.node y = some n → 0 < owners n.spans b s → Kn v e y
  ent : ∀ k en, v.c.get k = some en → 0 < owners (aG (entT en)) b s → e ∈ v.hb k ∨ e ∈ v.ha k
  call : ∀ (i : Nat) cl, v.c.calls[i]? = some cl → 0 < owners (aG (callT cl)) b s → e ∈ v.cv i
  alloc : v.c.a.b.sk.zst = false → ∀ x, v.c.a.b.sk.node x = some (.alloc b) → Kn v e x
  kent : wr = true → ∀ k en d, v.c.get k = some en → srcH w en.h = some d → Cov v.c.a.b.sk d b s → e ∈ v.hb k
  kbor : wr = true → ∀ (i : Nat) cl k en d, v.c.calls[i]? = some cl → cl.borrow = some k → v.c.get k = some en → srcH w en.h = some d →
    Cov v.c.a.b.sk d b s → e ∈ v.cv i
  kpc : wr = true → ∀ (i : Nat) cl d, v.c.calls[i]? = some cl → d ∈ keyP cl.pc → Cov v.c.a.b.sk d b s → e ∈ v.cv i

/-- What is covered is owned by something below. -/
theorem Cov.owned {T : List AT} {h : Heap α} (I : HInv h T) {d b i : Nat} (hc : Cov h.sk d b i) :
    0 < nsum h.sk (fun n => owners n.spans b i) := by
  obtain ⟨v, hv, hn⟩ := hc
  obtain ⟨rfl, h1, h2⟩ := num_pos.1 hn
  obtain ⟨y, u, h3, _, h4⟩ := I.good.owner hv (j := i) h1 h2
  have := nsum_le h3 (I.good.ledger.lt h3) (fun n => owners n.spans v.span.buf i)
  exact Nat.lt_of_lt_of_le h4 this

theorem aG_owners {T T' : List AT} (p : T.Perm T') {b i : Nat} : owners (aG T) b i = owners (aG T') b i :=
  owners_perm (p.flatMap_right _) b i

theorem src_ok {w : Bool} {c : Conf α} (B : c.BI) {k d : Nat} {en : Ent} (hk : c.get k = some en) (hs : srcH w en.h = some d) :
    d < c.a.b.sk.next ∧ c.a.b.sk.kind d = .data := by
  obtain ⟨h, m⟩ := en
  have h1 := B.ents k _ hk
  cases h with
  | strong d' g =>
    cases hs
    exact ⟨B.heap.lt (ref_mem_aS (Conf.get_tok' hk (by simp [entT]))), h1⟩
  | weak d' g =>
    simp only [srcH] at hs
    split at hs
    · exact h1 d hs
    · cases hs
  | uniq r => cases hs

theorem key_ok {c : Conf α} (B : c.BI) {i d : Nat} {cl : Call α} (hi : c.calls[i]? = some cl) (hd : d ∈ keyP cl.pc) :
    d < c.a.b.sk.next := by
  refine B.heap.lt (ref_mem_aS (Conf.call_tok hi ?_))
  exact List.mem_append_right _ (keyP_ref hd)

theorem spans_span {v : DataV} {b i : Nat} (h : 0 < owners (Node.data v).spans b i) : 0 < v.span.num b i := by
  have := v.num_halves b i
  simp only [Node.spans, owners_append, DataV.ownSub] at h
  split at h <;> split at h <;> simp at h <;> omega

theorem Cov.evo' {k k' : Skel} (e : Evo k k') {d b i : Nat} (hd : d < k.next) (S : Shape k) (S' : Shape k') (h : Cov k' d b i) : Cov k d b i := by
  refine h.evo e hd ?_ S
  obtain ⟨w, hw, _⟩ := h
  rw [← e.kind d hd]; exact S'.kinds d _ hw

theorem spans_le {v v' : DataV} (h1 : v'.buf = v.buf) (h2 : v'.off = v.off) (h3 : v'.len = v.len) (h4 : ∀ s c, v.kids s = some c → v'.kids s = some c)
    (b i : Nat) : owners (Node.data v').spans b i ≤ owners (Node.data v).spans b i := by
  have h5 : ∀ s, owners (v'.ownSub s) b i ≤ owners (v.ownSub s) b i := by
    intro s
    simp only [DataV.ownSub]
    cases hk : v.kids s with
    | none =>
      have : v'.sub s = v.sub s := by cases s <;> simp only [DataV.sub, DataV.subOff, DataV.subLen, h1, h2, h3]
      split <;> simp [this]
    | some c => simp [h4 s c hk]
  simp only [Node.spans, owners_append]
  exact Nat.add_le_add (h5 .L) (h5 .R)

section
variable {o : Ords} {v v' : VConf α} {i e : Nat} {cl cl' : Call α} {push : List Ent} {U R N : List AT} {V : View} {w wr : Bool} {b s : Nat}

namespace VStp
variable (S : VStp o v v' i cl cl' push U R N V) (B : v.c.BI) (B' : v'.c.BI) (ev : Evo v.c.a.b.sk v'.c.a.b.sk)
include S B B' ev

omit ev in
theorem ledger : nsum v.c.a.b.sk (fun n => owners n.spans b s) + (owners (aG U) b s + (owners (aG R) b s + owners (aG (v.c.rest i)) b s)) =
      num (v.c.a.b.slot b s) ∧
    nsum v'.c.a.b.sk (fun n => owners n.spans b s) + (owners (aG N) b s + owners (aG (entsT push)) b s +
      (owners (aG R) b s + owners (aG (v.c.rest i)) b s)) = num (v'.c.a.b.slot b s) := by
  have h1 := (B.heap.perm S.p).good.ledger.o b s
  have h2 := (B'.heap.perm S.p').good.ledger.o b s
  simp only [aG_append, owners_append] at h1 h2
  exact ⟨h1, h2⟩

/-- Who gets hold of an item knows. -/
theorem own (F : Inf w v e wr b s) (h : 0 < owners (aG (N ++ entsT push)) b s) : e ∈ V := by
  by_cases hU : 0 < owners (aG U) b s
  · refine S.in_V (F.call i cl S.hi ?_)
    rw [aG_owners S.cT]
    rw [aG_append, owners_append]; omega
  obtain ⟨h1, h2⟩ := S.ledger B B' (b := b) (s := s)
  rw [aG_append, owners_append] at h
  have h3 := num_le_one (v'.c.a.b.slot b s)
  rcases S.mv.slot b s with h4 | h4 | h4
  · rw [h4] at h2 h3
    have h5 : 0 < nsum v.c.a.b.sk (fun n => owners n.spans b s) := by omega
    obtain ⟨y, n, hyl, hy, ho⟩ := nsum_pos h5
    cases hn : v'.c.a.b.sk.node y with
    | none => exact S.collect B hy hn (F.node y n hy ho)
    | some n' =>
      exfalso
      rcases B.heap.only y n hy with hk | hk
      · obtain ⟨u, rfl⟩ := data_of_kind hk
        obtain ⟨u', rfl, h6, h7, h8, _⟩ := ev.data y u _ hy hn
        have hc : Cov v'.c.a.b.sk y b s := ⟨u', hn, by
          have := spans_span ho
          simpa only [DataV.span, h6, h7, h8] using this⟩
        have := hc.owned B'.heap
        omega
      · cases n <;> simp_all [Node.kind, Node.spans]
  · exact absurd F.lt (Nat.not_lt.2 h4)
  · exact absurd h4.1 hU

/-- A step keeps what is known about earlier accesses. -/
theorem inf (hb : ∀ (j : Nat) clj k, v.c.calls[j]? = some clj → clj.borrow = some k → k < v.c.hs.length)
    (hu : w = true ∨ ∀ d, cl.pc ≠ .up d) (F : Inf w v e wr b s) : Inf w v' e wr b s := by
  have Sh := B.heap.good.shape
  have Sh' := B'.heap.good.shape
  have hlt : ¬ v.c.a.b.sk.nbuf ≤ b := Nat.not_le.2 F.lt
  have key : wr = true → ∀ y, y ∈ keyP cl'.pc ∨ (∃ en ∈ push, srcH w en.h = some y) → Cov v'.c.a.b.sk y b s → e ∈ V := by
    intro hw y hy hc
    rcases S.key w y b s hu hy hc with h | h | h | ⟨h, d, h1, h2, h3⟩
    · exact absurd h hlt
    · refine S.in_V (F.call i cl S.hi ?_)
      rw [aG_owners S.cT]
      rw [aG_append, owners_append]; omega
    · exact S.in_V (F.kpc hw i cl y S.hi h (hc.evo' ev (key_ok B S.hi h) Sh Sh'))
    · obtain ⟨k, m, h4, h5⟩ := Conf.bh_get h1
      exact S.in_V (F.kbor hw i cl k _ d S.hi h4 h5 h2 h3)
  refine ⟨Nat.lt_of_lt_of_le F.lt S.mv.nbuf, ?_, ?_, ?_, ?_, ?_, ?_, ?_⟩
  · intro y n' hn ho
    cases hy : v.c.a.b.sk.node y with
    | none =>
      rcases B'.heap.only y n' hn with hk | hk
      · obtain ⟨u, rfl⟩ := data_of_kind hk
        obtain ⟨h1, h2⟩ := S.mv.newData y u hy hn
        rcases h2 b s (spans_span ho) with h | h | ⟨z, x, x', sd, h3, h4, h5, h6, h7⟩
        · exact absurd h hlt
        · refine S.hold h1 (.inl (S.in_V (F.call i cl S.hi ?_)))
          rw [aG_owners S.cT]
          rw [aG_append, owners_append]; omega
        · refine .node h4 ?_ (S.mono B ev (F.node z _ h3 ?_) ⟨_, h4⟩)
          · cases sd <;> simp [Node.srefs, h5]
          · have h8 := spans_span ho
            rw [h7] at h8
            cases sd <;> simp only [Node.spans, DataV.ownSub, h6, owners_append, Option.isNone_none, if_true, owners_cons] <;> omega
      · cases n' <;> simp_all [Node.kind, Node.spans]
    | some n =>
      refine S.mono B ev (F.node y n hy ?_) ⟨_, hn⟩
      rcases B.heap.only y n hy with hk | hk
      · obtain ⟨u, rfl⟩ := data_of_kind hk
        obtain ⟨u', rfl, h6, h7, h8, _, h9⟩ := ev.data y u _ hy hn
        exact Nat.lt_of_lt_of_le ho (spans_le h6 h7 h8 h9 b s)
      · cases n <;> simp [Node.kind] at hk
        rw [ev.alloc y _ _ hy hn] at ho
        exact ho
  · intro k en hk ho
    rcases S.get hk with h | ⟨h1, h2⟩
    · rw [S.hb_old h]
      exact (F.ent k en h ho).imp id S.ha_old
    · refine .inl (S.hb_V h1 (.inl (S.own B B' ev F ?_)))
      rw [aG_append, owners_append]
      obtain ⟨A, C, rfl⟩ := List.append_of_mem h2
      simp only [entsT, List.flatMap_append, List.flatMap_cons, aG_append, owners_append]
      omega
  · intro j clj hj ho
    by_cases hij : j = i
    · subst hij
      rw [S.self] at hj; cases hj
      replace ho : 0 < owners (aG (callT cl')) b s := ho
      rw [aG_owners S.cT'] at ho
      rw [aG_append, owners_append] at ho
      by_cases hN : 0 < owners (aG N) b s
      · refine S.cv_V (.inl (S.own B B' ev F ?_))
        rw [aG_append, owners_append]; omega
      · refine S.cv_V (.inl (S.in_V (F.call j cl S.hi ?_)))
        rw [aG_owners S.cT]
        rw [aG_append, owners_append]; omega
    · exact S.in_cv (F.call j clj ((S.other hij).symm.trans hj) ho)
  · intro hz x hx
    rw [ev.zst] at hz
    cases hy : v.c.a.b.sk.node x with
    | none => exact absurd (S.mv.newAlloc x b hy hx).1 hlt
    | some n =>
      refine S.mono B ev (F.alloc hz x ?_) ⟨_, hx⟩
      rcases B.heap.only x n hy with hk | hk
      · obtain ⟨u, rfl⟩ := data_of_kind hk
        obtain ⟨u', h, _⟩ := ev.data x u _ hy hx
        cases h
      · cases n <;> simp [Node.kind] at hk
        have := ev.alloc x _ _ hy hx
        rw [hy, ← this]
  · intro hw k en d hk hs hc
    rcases S.get hk with h | ⟨h1, h2⟩
    · rw [S.hb_old h]
      exact F.kent hw k en d h hs (hc.evo' ev (src_ok B h hs).1 Sh Sh')
    · exact S.hb_V h1 (.inl (key hw d (.inr ⟨en, h2, hs⟩) hc))
  · intro hw j clj k en d hj hbo hk hs hc
    have hold : ∀ clj', v.c.calls[j]? = some clj' → clj'.borrow = some k → e ∈ v'.cv j := by
      intro clj' h1 h2
      rcases S.get hk with h | ⟨h, _⟩
      · exact S.in_cv (F.kbor hw j clj' k en d h1 h2 h hs (hc.evo' ev (src_ok B h hs).1 Sh Sh'))
      · exact absurd (hb j clj' k h1 h2) (Nat.not_lt.2 h)
    by_cases hij : j = i
    · subst hij
      rw [S.self] at hj; cases hj
      exact hold cl S.hi (S.bor.symm.trans hbo)
    · exact hold clj ((S.other hij).symm.trans hj) hbo
  · intro hw j clj d hj hd hc
    by_cases hij : j = i
    · subst hij
      rw [S.self] at hj; cases hj
      exact S.cv_V (.inl (key hw d (.inl hd) hc))
    · have hj' := (S.other hij).symm.trans hj
      exact S.in_cv (F.kpc hw j clj d hj' hd (hc.evo' ev (key_ok B hj' hd) Sh Sh'))

end VStp
end
end Verif.Arc
