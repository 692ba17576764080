import Verif.Arc.Proofs.Race7
/-!
# Accesses to items through handles
-/

namespace Verif.Arc
open Verif.Spec (Side Slot Family Rng End)
open Verif.Rc
variable {α : Type}

/-- Nothing happens except that more is known. -/
structure VGrow (v v' : VConf α) : Prop where
  sk : v'.c.a.b.sk = v.c.a.b.sk
  hs : v'.c.hs = v.c.hs
  calls : v'.c.calls = v.c.calls
  m : v'.m = v.m
  cv : v'.cv = v.cv
  hb : ∀ k e, e ∈ v.hb k → e ∈ v'.hb k
  ha : ∀ k e, e ∈ v.ha k → e ∈ v'.ha k

section
variable {v v' : VConf α} {w wr : Bool} {e b s : Nat}

theorem VGrow.get (S : VGrow v v') (k : Nat) : v'.c.get k = v.c.get k := by simp only [Conf.get, S.hs]

theorem VGrow.kn (S : VGrow v v') {x : Nat} (h : Kn v e x) : Kn v' e x := by
  induction h with
  | cnt h => exact .cnt (by rw [S.m]; exact h)
  | ent hk hx h => exact .ent ((S.get _).trans hk) hx (h.imp (S.hb _ _) (S.ha _ _))
  | call hi hx h => exact .call (by rw [S.calls]; exact hi) hx (by rw [S.cv]; exact h)
  | node hy hx h ih => exact .node (by rw [S.sk]; exact hy) hx ih

theorem VGrow.inf (S : VGrow v v') (F : Inf w v e wr b s) : Inf w v' e wr b s where
  lt := by rw [S.sk]; exact F.lt
  node y n hy ho := S.kn (F.node y n (S.sk ▸ hy) ho)
  ent k en hk ho := (F.ent k en ((S.get k).symm.trans hk) ho).imp (S.hb _ _) (S.ha _ _)
  call i cl hi ho := by rw [S.cv]; exact F.call i cl (S.calls ▸ hi) ho
  alloc hz x hx := S.kn (F.alloc (S.sk ▸ hz) x (S.sk ▸ hx))
  kent hw k en d hk hs hc := S.hb _ _ (F.kent hw k en d ((S.get k).symm.trans hk) hs (S.sk ▸ hc))
  kbor hw i cl k en d hi hbo hk hs hc := by
    rw [S.cv]; exact F.kbor hw i cl k en d (S.calls ▸ hi) hbo ((S.get k).symm.trans hk) hs (S.sk ▸ hc)
  kpc hw i cl d hi hd hc := by rw [S.cv]; exact F.kpc hw i cl d (S.calls ▸ hi) hd (S.sk ▸ hc)

/-- What is known of a slice is known of the one of its parts that owns the item. -/
theorem Kn.down {T : List AT} (I : HInv v.c.a.b T) {d : Nat} (h : Kn v e d) (hc : Cov v.c.a.b.sk d b s) :
    ∃ y u, v.c.a.b.sk.node y = some (.data u) ∧ (v.c.a.b.sk.lab d).up (v.c.a.b.sk.lab y) ∧ Kn v e y ∧ 0 < owners (Node.data u).spans b s := by
  generalize hn : v.c.a.b.sk.next - d = n
  induction n using Nat.strongRecOn generalizing d with
  | ind n ih =>
    obtain ⟨u, hu, hp⟩ := hc
    have S := I.good.shape
    have key : ∀ sd, 0 < (u.sub sd).num b s → ∃ y u, v.c.a.b.sk.node y = some (.data u) ∧
        (v.c.a.b.sk.lab d).up (v.c.a.b.sk.lab y) ∧ Kn v e y ∧ 0 < owners (Node.data u).spans b s := by
      intro sd h1
      cases hc : u.kids sd with
      | none =>
        refine ⟨d, u, hu, Lab.up_refl _, h, ?_⟩
        cases sd <;> simp only [Node.spans, DataV.ownSub, hc, owners_append, Option.isNone_none, if_true, owners_cons] <;> omega
      | some c =>
        obtain ⟨a1, a2, vc, a3⟩ := S.dataKid d u sd c hu hc
        have hlt := I.good.ledger.lt a3
        have e1 := ((S.vok hu).kid S.toAShape (a2 ▸ S.vok a3)).1
        rw [← e1] at h1
        obtain ⟨y, u', h2, h3, h4⟩ := ih (v.c.a.b.sk.next - c) (by omega)
          (.node hu (by cases sd <;> simp [Node.srefs, hc]) h) ⟨vc, a3, h1⟩ rfl
        refine ⟨y, u', h2, Lab.up_trans ?_ h3, h4⟩
        rw [a2]; exact Lab.up_child _ _
    have := u.num_halves b s
    by_cases hL : 0 < (u.sub .L).num b s
    · exact key .L hL
    · exact key .R (by omega)

end

section
variable {c : Conf α} {b s : Nat}

/-- An item has one owner. -/
theorem owner_uniq (B : c.BI) {y z : Nat} {n m : Node} (hy : c.a.b.sk.node y = some n) (hz : c.a.b.sk.node z = some m)
    (h1 : 0 < owners n.spans b s) (h2 : 0 < owners m.spans b s) : y = z := by
  refine Decidable.byContradiction fun hne => ?_
  have h3 := nsum_le2 hy (B.heap.good.ledger.lt hy) hz (B.heap.good.ledger.lt hz) hne (fun n => owners n.spans b s)
  have h4 := B.heap.good.ledger.o b s
  have h5 := num_le_one (c.a.b.slot b s)
  omega

theorem owner_node (B : c.BI) (ho : 0 < owners (aG c.T) b s) : ¬ 0 < nsum c.a.b.sk (fun n => owners n.spans b s) := by
  intro h
  have h4 := B.heap.good.ledger.o b s
  have h5 := num_le_one (c.a.b.slot b s)
  omega

theorem owner_cov (B : c.BI) (ho : 0 < owners (aG c.T) b s) {d : Nat} : ¬ Cov c.a.b.sk d b s :=
  fun hc => owner_node B ho (hc.owned B.heap)

theorem ent_split {k : Nat} {en : Ent} (hk : c.get k = some en) :
    c.T.Perm (entT en ++ ((c.hs.take k ++ c.hs.drop (k + 1)).flatMap slotT ++ c.calls.flatMap callT)) := by
  have e := list_split (Conf.get_some hk)
  have e1 : c.hs.flatMap slotT = (c.hs.take k).flatMap slotT ++ (entT en ++ (c.hs.drop (k + 1)).flatMap slotT) := by
    conv => lhs; rw [e]
    rw [List.flatMap_append, List.flatMap_cons]; rfl
  rw [T_split, e1, List.flatMap_append]
  simp only [List.append_assoc]
  exact List.perm_append_comm_assoc _ _ _

theorem ent_rest {k k' : Nat} {en : Ent} (hk : c.get k' = some en) (hne : k' ≠ k) {t : AT} (ht : t ∈ entT en) :
    t ∈ (c.hs.take k ++ c.hs.drop (k + 1)).flatMap slotT := by
  refine List.mem_flatMap.2 ⟨some en, ?_, ht⟩
  have h2 := Conf.get_some hk
  rcases Nat.lt_or_gt_of_ne hne with hlt | hgt
  · refine List.mem_append_left _ (List.mem_of_getElem? (i := k') ?_)
    rw [List.getElem?_take_of_lt hlt]; exact h2
  · refine List.mem_append_right _ (List.mem_of_getElem? (i := k' - (k + 1)) ?_)
    rw [List.getElem?_drop]
    rw [show k + 1 + (k' - (k + 1)) = k' by omega]; exact h2

theorem owner_two (B : c.BI) {A D : List AT} (p : c.T.Perm (A ++ D)) (h1 : 0 < owners (aG A) b s) (h2 : 0 < owners (aG D) b s) : False := by
  have h4 := (B.heap.perm p).good.ledger.o b s
  have h5 := num_le_one (c.a.b.slot b s)
  rw [aG_append, owners_append] at h4
  omega

theorem owner_ent (B : c.BI) {k k' : Nat} {en en' : Ent} (hk : c.get k = some en) (hk' : c.get k' = some en')
    (h1 : 0 < owners (aG (entT en)) b s) (h2 : 0 < owners (aG (entT en')) b s) : k' = k := by
  refine Decidable.byContradiction fun hne => owner_two B (ent_split hk) h1 (aG_sub (A := entT en') ?_ h2)
  exact fun t ht => List.mem_append_left _ (ent_rest hk' hne ht)

theorem owner_call (B : c.BI) {k i : Nat} {en : Ent} {cl : Call α} (hk : c.get k = some en) (hi : c.calls[i]? = some cl)
    (h1 : 0 < owners (aG (entT en)) b s) : ¬ 0 < owners (aG (callT cl)) b s := fun h2 =>
  owner_two B (Conf.T_perm hi) h2 (aG_sub (fun _ ht => Conf.get_tok hk i ht) h1)

/-- What is above a slice leads to it. -/
theorem linked {k : Skel} (S : Shape k) (hlt : ∀ x n, k.node x = some n → x < k.next) {q x : Nat} {v w : DataV} (hq : k.node q = some (.data v)) (hx : k.node x = some (.data w))
    (hu : (k.lab q).up (k.lab x)) (hne : q ≠ x) : ∃ y u s, k.node y = some (.data u) ∧ u.kids s = some x := by
  generalize hn : k.next - q = n
  induction n using Nat.strongRecOn generalizing q v with
  | ind n ih =>
    rcases Lab.up_cases hu with h | ⟨s, h⟩
    · exact absurd (S.dataUniq q v x w hq hx h) hne
    · have h1 := S.dataDown q v x w s hq hx h
      obtain ⟨c, hc⟩ := Option.isSome_iff_exists.1 h1
      obtain ⟨a1, a2, vc, a3⟩ := S.dataKid q v s c hq hc
      by_cases hcx : c = x
      · subst hcx; exact ⟨q, v, s, hq, hc⟩
      · have := hlt c _ a3
        exact ih (k.next - c) (by omega) a3 (a2 ▸ h) hcx rfl

/-- Nobody else covers items that are accessed exclusively. -/
theorem Excl.alone (B : c.BI) {d d' : Nat} (E : Excl c.a c.T d) (hd' : .ref d' ∈ c.T) (hc : Cov c.a.b.sk d b s) (hc' : Cov c.a.b.sk d' b s) : d' = d := by
  have S := B.heap.good.shape
  obtain ⟨u, hu, hn⟩ := hc
  obtain ⟨u', hu', hn'⟩ := hc'
  obtain ⟨rfl, h1, h2⟩ := num_pos.1 hn
  obtain ⟨h0', h1', h2'⟩ := num_pos.1 hn'
  obtain ⟨y, x, h3, h4, h5⟩ := B.heap.good.owner hu (j := s) h1 h2
  obtain ⟨y', x', h3', h4', h5'⟩ := B.heap.good.owner hu' (j := s) h1' h2'
  have h0' : u'.buf = u.buf := h0'
  rw [h0'] at h5'
  have := owner_uniq B h3 h3' h5 h5'
  subst this
  rcases Lab.up_comparable h4 h4' with h | h
  · exact S.dataUniq d' u' d u hu' hu (E.desc d' hd' (S.kinds _ _ hu') h)
  · refine Decidable.byContradiction fun hne => ?_
    obtain ⟨z, t, sd, h6, h7⟩ := linked S (fun x n hx => B.heap.good.ledger.lt hx) hu' hu h hne
    exact E.link z t sd h6 h7

end

section
variable {v v' : VConf α} {w wr : Bool} {e b s : Nat}

/-- A handle covers an item. -/
def Ent.Covers (en : Ent) (c : Conf α) (b s : Nat) : Prop :=
  (∃ d g, en.h = .strong d g ∧ Cov c.a.b.sk d b s) ∨ ∃ r, en.h = .uniq r ∧ 0 < r.span.num b s

theorem covers_of {c : Conf α} {en : Ent} {b off len j : Nat} (h : Conf.range c.a en.h = .ok (some (b, off, len))) (hj : j < len) :
    en.Covers c b (off + j) := by
  obtain ⟨h', m⟩ := en
  cases h' with
  | strong d g =>
    simp only [Conf.range] at h
    obtain ⟨u, h1, h2⟩ := bind_ok h
    cases pure_ok h2
    refine .inl ⟨d, g, rfl, u, getData_some h1, ?_⟩
    rw [num_pos]
    exact ⟨rfl, Nat.le_add_right .., Nat.add_lt_add_left hj _⟩
  | weak d g => simp [Conf.range] at h
  | uniq r =>
    simp only [Conf.range, Except.ok.injEq, Option.some.injEq, Prod.mk.injEq] at h
    obtain ⟨rfl, rfl, rfl⟩ := h
    refine .inr ⟨r, rfl, ?_⟩
    rw [num_pos]
    exact ⟨rfl, Nat.le_add_right .., Nat.add_lt_add_left hj _⟩

theorem entT_uniq {en : Ent} {r : Reg} (h : en.h = .uniq r) : entT en = [.reg r] := by simp [entT, h]

theorem entT_strong {en : Ent} {d g : Nat} (h : en.h = .strong d g) : entT en = [.ref d, .gd g] := by simp [entT, h]

theorem Inf.use (B : v.c.BI) {k : Nat} {en : Ent} (hk : v.c.get k = some en) (hc : en.Covers v.c b s) (he : e ∈ v.hb k ∨ e ∈ v.ha k)
    (h1 : wr = true → ∀ k en d, v.c.get k = some en → srcH w en.h = some d → Cov v.c.a.b.sk d b s → e ∈ v.hb k)
    (h2 : wr = true → ∀ (i : Nat) cl k en d, v.c.calls[i]? = some cl → cl.borrow = some k → v.c.get k = some en → srcH w en.h = some d →
      Cov v.c.a.b.sk d b s → e ∈ v.cv i)
    (h3 : wr = true → ∀ (i : Nat) cl d, v.c.calls[i]? = some cl → d ∈ keyP cl.pc → Cov v.c.a.b.sk d b s → e ∈ v.cv i) : Inf w v e wr b s := by
  have lt : 0 < num (v.c.a.b.slot b s) → b < v.c.a.b.sk.nbuf := fun h => Nat.lt_of_not_le fun h' => by
    rw [B.heap.bufs b s h'] at h; simp [num] at h
  have L := B.heap.good.ledger.o b s
  have Sh := B.heap.good.shape
  rcases hc with ⟨d, g, hd, hc⟩ | ⟨r, hr, hn⟩
  · have kd : Kn v e d := .ent hk (by rw [entT_strong hd]; simp [aS]) he
    have ho := hc.owned B.heap
    refine ⟨lt (by omega), ?_, ?_, ?_, ?_, h1, h2, h3⟩
    · intro y n hy h
      obtain ⟨z, u, h4, _, h5, h6⟩ := kd.down B.heap hc
      have := owner_uniq B hy h4 h h6
      subst this
      exact h5
    · intro k' en' hk' h
      exact absurd ho (owner_node B (own_ent hk' h))
    · intro i cl hi h
      exact absurd ho (owner_node B (own_call hi h))
    · intro hz x hx
      obtain ⟨u, hu, hn⟩ := hc
      obtain ⟨h4, h5, h6⟩ := num_pos.1 hn
      have h5 : u.off ≤ s := h5
      have h6 : s < u.off + u.len := h6
      have h4 : u.buf = b := h4
      cases ha : u.alloc with
      | none => rw [Sh.dataMem d u hu (by omega) ha] at hz; cases hz
      | some x' =>
        have h7 := Sh.dataAlloc d u x' hu ha
        rw [h4] at h7
        have := Sh.allocUniq x' x b h7 hx
        subst this
        exact .node hu (by simp [Node.srefs, ha]) kd
  · have ho : 0 < owners (aG (entT en)) b s := by rw [entT_uniq hr]; simpa [aG] using hn
    have hoT := own_ent hk ho
    refine ⟨lt (by omega), ?_, ?_, ?_, ?_, h1, h2, h3⟩
    · intro y n hy h
      refine absurd ?_ (owner_node B hoT)
      exact Nat.lt_of_lt_of_le h (nsum_le hy (B.heap.good.ledger.lt hy) (fun n => owners n.spans b s))
    · intro k' en' hk' h
      have := owner_ent B hk hk' ho h
      subst this
      exact he
    · intro i cl hi h
      exact absurd h (owner_call B hk hi ho)
    · intro hz x hx
      have R := B.heap.regs r (Conf.get_tok' hk (by rw [entT_uniq hr]; simp))
      obtain ⟨h4, h5, h6⟩ := num_pos.1 hn
      have h5 : r.off ≤ s := h5
      have h6 : s < r.off + r.len := h6
      have h4 : r.buf = b := h4
      cases ha : r.alloc with
      | none => rw [R.2 (by omega) ha] at hz; cases hz
      | some x' =>
        have h7 := R.1 x' ha
        rw [h4] at h7
        have := Sh.allocUniq x' x b h7 hx
        subst this
        exact .ent hk (by rw [entT_uniq hr]; simp [aS, ha]) he

/-- Reading. -/
theorem Inf.read (B : v.c.BI) {k : Nat} {en : Ent} (hk : v.c.get k = some en) (hc : en.Covers v.c b s) (he : e ∈ v.hb k ∨ e ∈ v.ha k) :
    Inf w v e false b s :=
  .use B hk hc he (fun h => by cases h) (fun h => by cases h) (fun h => by cases h)

/-- Writing through a unique handle. -/
theorem Inf.writeU (B : v.c.BI) {k : Nat} {en : Ent} {r : Reg} (hk : v.c.get k = some en) (hr : en.h = .uniq r) (hn : 0 < r.span.num b s)
    (he : e ∈ v.hb k ∨ e ∈ v.ha k) : Inf w v e wr b s := by
  have ho : 0 < owners (aG (entT en)) b s := by rw [entT_uniq hr]; simpa [aG] using hn
  have no : ∀ {d}, ¬ Cov v.c.a.b.sk d b s := owner_cov B (own_ent hk ho)
  exact .use B hk (.inr ⟨r, hr, hn⟩) he (fun _ _ _ _ _ _ h => absurd h no) (fun _ _ _ _ _ _ _ _ _ _ h => absurd h no)
    (fun _ _ _ _ _ _ h => absurd h no)

/-- Writing through the result of `get_mut`. -/
theorem Inf.writeM (A : v.c.IA true) {k d g : Nat} (hk : v.c.get k = some ⟨.strong d g, true⟩) (hc : Cov v.c.a.b.sk d b s)
    (he : e ∈ v.hb k) : Inf false v e wr b s := by
  have B := A.bi
  have E := A.ph.ent rfl k d g hk
  have one : ∀ {k' en d'}, v.c.get k' = some en → srcH false en.h = some d' → Cov v.c.a.b.sk d' b s → k' = k := by
    intro k' en d' hk' hs hc'
    obtain ⟨h, m⟩ := en
    cases h with
    | strong d2 g2 =>
      cases hs
      have := E.alone B (d' := d') (Conf.get_tok' hk' (by simp [entT])) hc hc'
      subst this
      exact excl_ent E hk hk'
    | weak d2 g2 => cases hs
    | uniq r => cases hs
  refine .use B hk (.inl ⟨d, g, rfl, hc⟩) (.inl he) ?_ ?_ ?_
  · intro _ k' en d' hk' hs hc'
    rw [one hk' hs hc']; exact he
  · intro _ i cl k' en d' hi hbo hk' hs hc'
    have := one hk' hs hc'
    subst this
    exact absurd hk ((A.ph.bor i cl k' hi hbo).2 d g)
  · intro _ i cl d' hi hd hc'
    have hr : .ref d' ∈ callT cl := List.mem_append_right _ (keyP_ref hd)
    have := E.alone B (d' := d') (Conf.call_tok hi hr) hc hc'
    subst this
    exact absurd hk (excl_call E hi hr k g true)

end
end Verif.Arc
