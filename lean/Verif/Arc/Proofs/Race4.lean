import Verif.Arc.Proofs.Race3
/-!
# Knowing that something has happened

Whoever could get hold of an `Arc` last knows what has been done through it: the
knowledge is with a holder, or in the counter.
-/

namespace Verif.Arc
open Verif.Spec (Side Slot Family Rng End)
open Verif.Rc
variable {α : Type}

/-- Whoever drops the last reference to `x` will know that access `e` has happened. -/
inductive Kn (v : VConf α) (e : Nat) : Nat → Prop
  | cnt {x : Nat} (h : e ∈ v.m (.cnt x)) : Kn v e x
  | ent {x k : Nat} {en : Ent} (hk : v.c.get k = some en) (hx : x ∈ aS (entT en)) (h : e ∈ v.hb k ∨ e ∈ v.ha k) : Kn v e x
  | call {x i : Nat} {cl : Call α} (hi : v.c.calls[i]? = some cl) (hx : x ∈ aS (callT cl)) (h : e ∈ v.cv i) : Kn v e x
  | node {x y : Nat} {n : Node} (hy : v.c.a.b.sk.node y = some n) (hx : x ∈ n.srefs) (h : Kn v e y) : Kn v e x

/-- A step of call `i`. -/
structure VStp (o : Ords) (v v' : VConf α) (i : Nat) (cl cl' : Call α) (push : List Ent) (U R N : List AT) (V : View) : Prop where
  hi : v.c.calls[i]? = some cl
  hc : v'.c = v.c.after i v'.c.a cl' push
  bor : cl'.borrow = cl.borrow
  p : v.c.T.Perm (U ++ (R ++ v.c.rest i))
  p' : v'.c.T.Perm (N ++ entsT push ++ (R ++ v.c.rest i))
  cT : (callT cl).Perm (U ++ R)
  cT' : (callT cl').Perm (N ++ R)
  mv : Mv v.c.a v'.c.a (callAcc o v.c.a cl) U (N ++ entsT push)
  key : ∀ w y b s, (w = true ∨ ∀ d, cl.pc ≠ .up d) → y ∈ keyP cl'.pc ∨ (∃ en ∈ push, srcH w en.h = some y) → Cov v'.c.a.b.sk y b s →
    v.c.a.b.sk.nbuf ≤ b ∨ 0 < owners (aG U) b s ∨ y ∈ keyP cl.pc ∨ ∃ h d, cl.bh v.c = some h ∧ srcH w h = some d ∧ Cov v.c.a.b.sk d b s
  view : V = (Acc.runs (v.log.length :: v.cv i, v.m) (callAcc o v.c.a cl)).1
  rel : v'.m = (Acc.runs (v.log.length :: v.cv i, v.m) (callAcc o v.c.a cl)).2
  hb : v'.hb = fun k => if v.c.hs.length ≤ k then (v.log.length + 1) :: V else v.hb k
  ha : v'.ha = fun k => if cl.borrow = some k then (v.ha k).join ((v.log.length + 1) :: V) else v.ha k
  cv : v'.cv = upd v.cv i ((v.log.length + 1) :: V)
  log : v'.log = v.log ++ ([⟨false, false, fun _ _ => false, preObj v.c.a v'.c.a cl, v.cv i⟩] ++
    [⟨true, false, touched v.c.a v'.c.a, postObj v.c.a v'.c.a, V⟩])
  how : (∃ t ts new, cl.tasks = t :: ts ∧ ataskStep v.c.a t = .ok (v'.c.a, new) ∧ cl' = { cl with tasks := new ++ ts } ∧ push = [] ∧
      U = ataskT t ∧ N = new.flatMap ataskT) ∨
    ∃ n, cl.tasks = [] ∧ PStep v.c.a cl.pc v'.c.a n ∧ cl' = { cl with pc := n.pc, tasks := n.tasks } ∧ push = n.push ∧
      U = pcT cl.pc ∧ N = n.tasks.flatMap ataskT ++ pcT n.pc

theorem VStp.of {o : Ords} {v v' : VConf α} {i : Nat} (B : v.c.BI) (h : v.step o i = .ok v') :
    (v.c.calls[i]? = none ∧ v' = v) ∨ ∃ cl cl' push U R N V, VStp o v v' i cl cl' push U R N V := by
  simp only [VConf.step] at h
  split at h
  · next hi => cases h; exact .inl ⟨hi, rfl⟩
  · next cl hi =>
    obtain ⟨c', e, h⟩ := bind_ok h
    cases pure_ok h
    refine .inr ?_
    cases CStep.of e with
    | none h2 => rw [hi] at h2; cases h2
    | task cl2 t ts a' new hi2 ht e2 =>
      rw [hi] at hi2; cases hi2
      have p := Conf.T_perm hi
      have p' := Conf.after_T hi a' { cl with tasks := new ++ ts } []
      have q : (callT cl).Perm (ataskT t ++ (ts.flatMap ataskT ++ pcT cl.pc)) := by
        simp only [callT, ht, List.flatMap_cons, List.append_assoc]; exact .refl _
      have q' : (callT { cl with tasks := new ++ ts }).Perm (new.flatMap ataskT ++ (ts.flatMap ataskT ++ pcT cl.pc)) := by
        simp only [callT, List.flatMap_append, List.append_assoc]; exact .refl _
      refine ⟨cl, { cl with tasks := new ++ ts }, [], ataskT t, ts.flatMap ataskT ++ pcT cl.pc, new.flatMap ataskT, _, ⟨hi, rfl, rfl,
        ?_, ?_, q, q', ?_, ?_, rfl, rfl, rfl, rfl, rfl, rfl, .inl ⟨t, ts, new, ht, e2, rfl, rfl, rfl, rfl⟩⟩⟩
      · have := p.trans (q.append_right (v.c.rest i))
        simpa only [List.append_assoc] using this
      · have := p'.trans ((q'.append_right _).append_right (v.c.rest i))
        simpa [entsT] using this
      · have I : HInv v.c.a.b (ataskT t ++ (ts.flatMap ataskT ++ pcT cl.pc ++ v.c.rest i)) := by
          have := B.heap.perm (p.trans (q.append_right (v.c.rest i)))
          simpa only [List.append_assoc] using this
        have := mv_task I ((B.calls i cl hi).2 t (by simp [ht])) e2
        replace this := this.byAcc (AccLe.filter (o := o))
        have ha : callAcc o v.c.a cl = (ataskAcc v.c.a t).filter fun r => o.weak || !r.onWeak := by simp only [callAcc, ht]
        rw [ha]
        show Mv v.c.a a' _ _ (new.flatMap ataskT ++ [])
        rw [List.append_nil]; exact this
      · intro w y b s _ hy _
        rcases hy with hy | ⟨en, hy, _⟩
        · exact .inr (.inr (.inl hy))
        · cases hy
    | pc cl2 a' n hi2 ht e2 =>
      rw [hi] at hi2; cases hi2
      have p := Conf.T_perm hi
      have p' := Conf.after_T hi a' { cl with pc := n.pc, tasks := n.tasks } n.push
      have q : (callT cl).Perm (pcT cl.pc ++ []) := by
        simp only [callT, ht, List.flatMap_nil, List.nil_append, List.append_nil]; exact .refl _
      have q' : (callT { cl with pc := n.pc, tasks := n.tasks }).Perm (n.tasks.flatMap ataskT ++ pcT n.pc ++ []) := by
        rw [List.append_nil]; exact .refl _
      have I : HInv v.c.a.b (pcT cl.pc ++ v.c.rest i) := by
        have := B.heap.perm (p.trans (q.append_right (v.c.rest i)))
        simpa only [List.append_nil] using this
      have hp := (B.calls i cl hi).1
      refine ⟨cl, { cl with pc := n.pc, tasks := n.tasks }, n.push, pcT cl.pc, [], n.tasks.flatMap ataskT ++ pcT n.pc, _, ⟨hi, rfl, rfl,
        ?_, p', q, q', ?_, ?_, rfl, rfl, rfl, rfl, rfl, rfl, .inr ⟨n, ht, .of e2, rfl, rfl, rfl, rfl⟩⟩⟩
      · have := p.trans (q.append_right (v.c.rest i))
        simpa only [List.append_assoc] using this
      · have ha : callAcc o v.c.a cl = (pcAcc o v.c.a cl.pc).filter fun r => o.weak || !r.onWeak := by simp only [callAcc, ht]
        rw [ha]
        exact (mv_pc I hp (PStep.of e2)).byAcc AccLe.filter
      · intro w y b s hw hy hc
        exact key_pc I hp hw (PStep.of e2) hy hc

section
variable {o : Ords} {v v' : VConf α} {i e : Nat} {cl cl' : Call α} {push : List Ent} {U R N : List AT} {V : View}

theorem push_get {c : Conf α} {a : Arena α} {en : Ent} (h : en ∈ push) : ∃ k, c.hs.length ≤ k ∧ (c.after i a cl' push).get k = some en := by
  obtain ⟨m, hm, rfl⟩ := List.mem_iff_getElem.1 h
  refine ⟨c.hs.length + m, Nat.le_add_right .., ?_⟩
  simp only [Conf.get, Conf.after]
  rw [List.getElem?_append_right (by omega)]
  simp [hm]

namespace VStp
variable (S : VStp o v v' i cl cl' push U R N V)
include S

theorem len : i < v.c.calls.length := (List.getElem?_eq_some_iff.1 S.hi).1

theorem self : v'.c.calls[i]? = some { cl' with out := cl'.out ++ List.range' v.c.hs.length push.length } := by
  rw [S.hc]
  simp only [Conf.after]
  rw [List.getElem?_set_self S.len]

theorem other {j : Nat} (h : j ≠ i) : v'.c.calls[j]? = v.c.calls[j]? := by
  rw [S.hc]
  simp only [Conf.after]
  rw [List.getElem?_set_ne (fun h' => h h'.symm)]

theorem get_old {k : Nat} {en : Ent} (h : v.c.get k = some en) : v'.c.get k = some en := by
  rw [S.hc]; exact after_get_old h

theorem get {k : Nat} {en : Ent} (h : v'.c.get k = some en) : v.c.get k = some en ∨ v.c.hs.length ≤ k ∧ en ∈ push := by
  rw [S.hc] at h; exact after_get h

theorem in_cv {j : Nat} (h : e ∈ v.cv j) : e ∈ v'.cv j := by
  rw [S.cv]
  by_cases hj : j = i
  · subst hj
    rw [upd_same, S.view]
    exact List.mem_cons_of_mem _ (Acc.runs_view (List.mem_cons_of_mem _ h))
  · rw [upd_ne _ _ hj]; exact h

theorem in_V (h : e ∈ v.cv i) : e ∈ V := by rw [S.view]; exact Acc.runs_view (List.mem_cons_of_mem _ h)

theorem cv_V (h : e ∈ V ∨ e = v.log.length + 1) : e ∈ v'.cv i := by
  rw [S.cv, upd_same]
  rcases h with h | rfl
  · exact List.mem_cons_of_mem _ h
  · exact List.mem_cons_self ..

theorem hb_V {k : Nat} (hk : v.c.hs.length ≤ k) (h : e ∈ V ∨ e = v.log.length + 1) : e ∈ v'.hb k := by
  rw [S.hb]
  simp only [if_pos hk]
  rcases h with h | rfl
  · exact List.mem_cons_of_mem _ h
  · exact List.mem_cons_self ..

theorem hb_old {k : Nat} {en : Ent} (hk : v.c.get k = some en) : v'.hb k = v.hb k := by
  rw [S.hb]
  simp only [if_neg (Nat.not_le.2 (Conf.get_lt hk))]

theorem ha_old {k : Nat} (h : e ∈ v.ha k) : e ∈ v'.ha k := by
  rw [S.ha]
  simp only
  split
  · exact View.mem_join.2 (.inl h)
  · exact h

theorem hold {x : Nat} (hx : x ∈ aS (N ++ entsT push)) (h : e ∈ V ∨ e = v.log.length + 1) : Kn v' e x := by
  rw [aS_append, List.mem_append] at hx
  rcases hx with hx | hx
  · refine .call S.self ?_ (S.cv_V h)
    show x ∈ aS (callT cl')
    rw [(aS_perm S.cT').mem_iff, aS_append]
    exact List.mem_append_left _ hx
  · obtain ⟨t, ht, hx⟩ := List.mem_flatMap.1 hx
    obtain ⟨en, he, ht⟩ := List.mem_flatMap.1 ht
    obtain ⟨k, hk, hg⟩ := push_get (c := v.c) (a := v'.c.a) (cl' := cl') (i := i) he
    rw [← S.hc] at hg
    exact .ent hg (mem_aS ht hx) (.inl (S.hb_V hk h))

theorem holds {x : Nat} (hx : Holds v'.c.a.b.sk (N ++ entsT push) x) (h : e ∈ V ∨ e = v.log.length + 1) : Kn v' e x := by
  rcases hx with hx | ⟨y, n, hy, hn, hx⟩
  · exact S.hold hx h
  · exact .node hn hx (S.hold hy h)

/-- A reference is passed on, or dropped. -/
theorem passN {x : Nat} (hx : x ∈ aS U) (h : e ∈ v.log.length :: v.cv i) (hl : ∃ n, v'.c.a.b.sk.node x = some n) : Kn v' e x := by
  rcases S.mv.keep x hx hl with h1 | ⟨r, h1, h2⟩
  · exact S.holds h1 (.inl (by rw [S.view]; exact Acc.runs_view h))
  · exact .cnt (by rw [S.rel]; exact Acc.runs_put (callAcc_store (by trivial)) h1 h2 h)

/-- Whoever drops the last reference knows. -/
theorem collect (B : v.c.BI) {y : Nat} {n : Node} (hn : v.c.a.b.sk.node y = some n) (hk : v'.c.a.b.sk.node y = none) (h : Kn v e y) : e ∈ V := by
  obtain ⟨h1, h2, ⟨r, h3, h4⟩, _⟩ := S.mv.kill y n hn hk
  have L := (B.heap.perm S.p).good.ledger.s y
  rw [h2, aS_append, aS_append, List.count_append, List.count_append] at L
  have hU := List.count_pos_iff.2 h1
  cases h with
  | cnt h => rw [S.view]; exact Acc.runs_acq (callAcc_store (by trivial)) h3 h4 h
  | ent hk hx h =>
    exfalso
    have : y ∈ aS (v.c.rest i) := by
      obtain ⟨t, ht, hx⟩ := List.mem_flatMap.1 hx
      exact mem_aS (Conf.get_tok hk i ht) hx
    have := List.count_pos_iff.2 this
    omega
  | @call _ j clj hj hx h =>
    by_cases hij : j = i
    · subst hij; exact S.in_V h
    · exfalso
      have : y ∈ aS (v.c.rest i) := by
        obtain ⟨t, ht, hx⟩ := List.mem_flatMap.1 hx
        exact mem_aS (Conf.rest_call hj hij ht) hx
      have := List.count_pos_iff.2 this
      omega
  | node hy hx h =>
    exfalso
    have h5 := nsum_le hy (B.heap.good.ledger.lt hy) (fun n => n.srefs.count y)
    have := List.count_pos_iff.2 hx
    omega

/-- What is known stays known. -/
theorem mono (B : v.c.BI) (ev : Evo v.c.a.b.sk v'.c.a.b.sk) {x : Nat} (h : Kn v e x) (hl : ∃ n, v'.c.a.b.sk.node x = some n) : Kn v' e x := by
  induction h with
  | cnt h => exact .cnt (by rw [S.rel]; exact Acc.runs_rel (callAcc_store (by trivial)) h)
  | ent hk hx h =>
    refine .ent (S.get_old hk) hx ?_
    rw [S.hb_old hk]
    exact h.imp id S.ha_old
  | @call x j clj hj hx h =>
    by_cases hij : j = i
    · subst hij
      rw [S.hi] at hj; cases hj
      rw [(aS_perm S.cT).mem_iff, aS_append, List.mem_append] at hx
      rcases hx with hx | hx
      · exact S.passN hx (List.mem_cons_of_mem _ h) hl
      · refine .call S.self ?_ (S.in_cv h)
        show x ∈ aS (callT cl')
        rw [(aS_perm S.cT').mem_iff, aS_append]
        exact List.mem_append_right _ hx
    · exact .call ((S.other hij).trans hj) hx (S.in_cv h)
  | @node x y n hy hx h ih =>
    cases hn : v'.c.a.b.sk.node y with
    | none =>
      have h1 := S.collect B hy hn h
      exact S.hold ((S.mv.kill y n hy hn).2.2.2 x hx) (.inl h1)
    | some n' =>
      refine .node hn ?_ (ih ⟨n', hn⟩)
      rcases B.heap.only y n hy with hk | hk
      · obtain ⟨w, rfl⟩ := data_of_kind hk
        obtain ⟨w', rfl, _, _, _, h4, h5⟩ := ev.data y w _ hy hn
        simp only [Node.srefs, List.mem_append, Option.mem_toList] at hx ⊢
        rw [h4]
        rcases hx with (hx | hx) | hx
        · exact .inl (.inl (h5 _ _ hx))
        · exact .inl (.inr (h5 _ _ hx))
        · exact .inr hx
      · cases n <;> simp_all [Node.kind, Node.srefs]

end VStp
end
end Verif.Arc
