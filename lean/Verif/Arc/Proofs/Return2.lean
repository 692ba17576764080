import Verif.Arc.Proofs.Return1
/-!
# Whoever returns a memory block knows all accesses to it

Every access to a block is known to one of those who keep it from being returned, or has been put into its weak counter by
one who no longer does.
-/

set_option linter.unusedSimpArgs false

namespace Verif.Arc
open Verif.Spec (Side Slot Family Rng End)
open Verif.Rc
variable {α : Type}

/-- Somebody who has a `Weak` of `x` knows that access `e` has happened. -/
inductive KH (b : BConf α) (e x : Nat) : Prop
  | live {n : Node} (hn : b.v.c.a.b.sk.node x = some n) (h : Kn b.v e x)
  | kid {y : Nat} {n : Node} (hn : b.v.c.a.b.sk.node y = some n) (hp : b.v.c.a.par y = some x) (h : Kn b.v e y)
  | ent {k : Nat} {en : Ent} (hk : b.v.c.get k = some en) (hx : x ∈ entW en) (h : e ∈ b.v.hb k ∨ e ∈ b.v.ha k)
  | call {i : Nat} {cl : Call α} (hi : b.v.c.calls[i]? = some cl) (hx : x ∈ callHold b.v.c.a cl) (h : e ∈ b.v.cv i)
  | due {V : View} (hV : (x, V) ∈ b.due) (h : e ∈ V)

/-- The invariant. -/
structure RetI (b : BConf α) : Prop where
  led : b.w.Ledger
  known : ∀ (i : Nat) ev x, b.v.log[i]? = some ev → ev.obj (.node x) ≠ .none → i ∈ b.wm x ∨ KH b i x ∨ ∃ r ∈ b.ret, r.1 = x
  sound : ∀ (i : Nat) ev x n V, b.v.log[i]? = some ev → ev.obj (.node x) ≠ .none → (x, n, V) ∈ b.ret → i < n ∧ i ∈ V
  gone : ∀ x n V, (x, n, V) ∈ b.ret → b.wk x = 0 ∧ x < b.v.c.a.b.sk.next
  back : ∀ x, x < b.v.c.a.b.sk.next → b.wk x = 0 → ∃ r ∈ b.ret, r.1 = x
  once : (b.ret.map (·.1)).Nodup
  wd : ∀ (i : Nat) cl g, b.v.c.calls[i]? = some cl → cl.pc = .wd (some g) → ∃ x, cl.on = some x ∧ ofG b.v.c.a x g

section
variable {b : BConf α} {e x : Nat}

/-- Those keep the block from being returned. -/
theorem KH.there (h : KH b e x) (L : b.w.Ledger) (P : ParOK b.v.c.a) : b.wk x ≠ 0 := by
  have ne : b.w.there (.node x) = true → b.wk x ≠ 0 := fun h => by simpa [WConf.there, BConf.w] using h
  have h1 := L.led x
  have h1 : b.wk x = b.v.c.led x + (b.due.map (·.1)).count x := h1
  cases h with
  | live hn _ => exact ne (L.live (w := b.w) hn)
  | kid hn hp _ => exact ne (L.up (w := b.w) P hn hp)
  | ent hk hx _ =>
    have h2 := List.count_pos_iff.2 (List.mem_flatMap.2 ⟨_, Conf.get_mem hk, hx⟩ : x ∈ b.v.c.hs.flatMap slotW)
    simp only [Conf.led] at h1
    omega
  | call hi hx _ =>
    have h2 := List.count_pos_iff.2 (List.mem_flatMap.2 ⟨_, List.mem_of_getElem? hi, hx⟩ : x ∈ b.v.c.calls.flatMap (callHold b.v.c.a))
    simp only [Conf.led] at h1
    omega
  | due hV _ =>
    have h2 := List.count_pos_iff.2 (List.mem_map.2 ⟨_, hV, rfl⟩ : x ∈ b.due.map (·.1))
    omega

end

/-! ## Steps -/

theorem PStep.no_wd {a a' : Arena α} {pc : Pc α} {n : Next α} {g : Option Nat} (h : PStep a pc a' n) (hn : n.pc = .wd g) : False := by
  cases h <;> cases hn

section
variable {o : Ords} {b b' : BConf α} {i e : Nat} {cl cl' : Call α} {push : List Ent} {U R N : List AT} {V : View}

/-- What `BConf.step` does. -/
theorem BConf.step_cases (h : b.step o i = .ok b') : (b.v.c.calls[i]? = none ∧ b' = b) ∨ ∃ cl w' v', b.v.c.calls[i]? = some cl ∧
    b.w.step i = .ok w' ∧ b.v.step { o with weak := false } i = .ok v' ∧
    b' = { b with v := v', wk := w'.wk, due := b.due ++ (callBlocks b.v.c.a cl).out.map fun x => (x, v'.cv i) } := by
  simp only [BConf.step] at h
  split at h
  · next hi => cases h; exact .inl ⟨hi, rfl⟩
  · next cl hi =>
    obtain ⟨w', h1, h⟩ := bind_ok h
    obtain ⟨v', h2, h⟩ := bind_ok h
    cases h
    exact .inr ⟨cl, w', v', hi, h1, h2, rfl⟩

variable (S : VStp o b.v b'.v i cl cl' push U R N V) (B : b.v.c.BI) (ev : AEvo b.v.c.a b'.v.c.a)
  (hd : b'.due = b.due ++ (callBlocks b.v.c.a cl).out.map fun x => (x, b'.v.cv i))
include S hd

theorem kh_out {x : Nat} (hx : x ∈ (callBlocks b.v.c.a cl).out) (h : e ∈ V ∨ e = b.v.log.length + 1) : KH b' e x := by
  refine .due (V := b'.v.cv i) ?_ (S.cv_V h)
  rw [hd]
  exact List.mem_append_right _ (List.mem_map.2 ⟨x, hx, rfl⟩)

include B ev in
/-- What is known stays known. -/
theorem KH.step {x : Nat} (h : KH b e x) : KH b' e x := by
  cases h with
  | @live n hn h =>
    cases hn' : b'.v.c.a.b.sk.node x with
    | none => exact kh_out S hd (by rw [S.killed B hn hn']; exact List.mem_cons_self ..) (.inl (S.collect B hn hn' h))
    | some n' => exact .live hn' (S.mono B ev.evo h ⟨n', hn'⟩)
  | @kid y n hn hp h =>
    cases hn' : b'.v.c.a.b.sk.node y with
    | none => exact kh_out S hd (by rw [S.killed B hn hn', hp]; simp) (.inl (S.collect B hn hn' h))
    | some n' => exact .kid hn' (by rw [ev.par y (B.heap.good.ledger.lt hn)]; exact hp) (S.mono B ev.evo h ⟨n', hn'⟩)
  | ent hk hx h =>
    refine .ent (S.get_old hk) hx ?_
    rw [S.hb_old hk]
    exact h.imp id S.ha_old
  | @call j clj hj hx h =>
    by_cases hij : j = i
    · subst hij
      have := S.hi
      rw [this] at hj; cases hj
      rcases S.held B ev hx with h1 | h1 | ⟨y, n, h1, h2, h3⟩
      · exact .call S.self h1 (S.in_cv h)
      · exact kh_out S hd h1 (.inl (S.in_V h))
      · exact .kid h1 h2 (S.hold h3 (.inl (S.in_V h)))
    · refine .call ((S.other hij).trans hj) ?_ (S.in_cv h)
      rw [callHold_mono B.par ev (B.calls j clj hj).1]; exact hx
  | due hV h => exact .due (by rw [hd]; exact List.mem_append_left _ hV) h

include B ev in
/-- Who makes an access knows it. -/
theorem kh_via (B' : b'.v.c.BI) {x : Nat} (h : Via b.v.c cl U x) : KH b' b.v.log.length x := by
  have nV : b.v.log.length ∈ V := by rw [S.view]; exact Acc.runs_view (List.mem_cons_self ..)
  have gone : ∀ {y}, y ∈ aS U → b'.v.c.a.b.sk.node y = none → (callBlocks b.v.c.a cl).out = y :: (b.v.c.a.par y).toList := by
    intro y h1 h2
    obtain ⟨n, hn⟩ := (B.heap.perm S.p).live (x := y) (by rw [aS_append]; exact List.mem_append_left _ h1)
    exact S.killed B hn h2
  have bor : ∀ {h}, cl.bh b.v.c = some h → ∃ k m, b.v.c.get k = some ⟨h, m⟩ ∧ b'.v.c.get k = some ⟨h, m⟩ ∧ b.v.log.length ∈ b'.v.ha k := by
    intro h hb
    obtain ⟨k, m, h1, h2⟩ := Conf.bh_get hb
    refine ⟨k, m, h2, S.get_old h2, ?_⟩
    rw [S.ha]
    simp only [h1, if_true]
    exact View.mem_join.2 (.inr (List.mem_cons_of_mem _ nV))
  have bs : ∀ {d g}, cl.bh b.v.c = some (.strong d g) → (∃ n, b'.v.c.a.b.sk.node d = some n) ∧ Kn b'.v b.v.log.length d := by
    intro d g hb
    obtain ⟨k, m, _, h1, h2⟩ := bor hb
    have hx : d ∈ aS (entT ⟨.strong d g, m⟩) := by simp [entT, aS]
    refine ⟨B'.heap.live ?_, .ent h1 hx (.inr h2)⟩
    obtain ⟨t, ht, hx⟩ := List.mem_flatMap.1 hx
    exact mem_aS (Conf.get_tok' h1 ht) hx
  cases h with
  | mine h =>
    cases hn : b'.v.c.a.b.sk.node x with
    | none => exact kh_out S hd (by rw [gone h hn]; exact List.mem_cons_self ..) (.inl nV)
    | some n => exact .live hn (S.passN h (List.mem_cons_self ..) ⟨n, hn⟩)
  | @par y h hp =>
    cases hn : b'.v.c.a.b.sk.node y with
    | none => exact kh_out S hd (by rw [gone h hn, hp]; simp) (.inl nV)
    | some n => exact .kid hn (by rw [ev.par y (B.par.par y x hp).1]; exact hp) (S.passN h (List.mem_cons_self ..) ⟨n, hn⟩)
  | bor h hx =>
    obtain ⟨⟨n, h1⟩, h2⟩ := bs h
    subst hx
    exact .live h1 h2
  | @kid d g n h hn hx =>
    obtain ⟨⟨n', h1⟩, h2⟩ := bs h
    have hx' : x ∈ n'.srefs := by
      rcases B.heap.only d n hn with hk | hk
      · obtain ⟨u, rfl⟩ := data_of_kind hk
        obtain ⟨u', rfl, _, _, _, h4, h5⟩ := ev.evo.data d u _ hn h1
        simp only [Node.srefs, List.mem_append, Option.mem_toList] at hx ⊢
        rw [h4]
        rcases hx with (hx | hx) | hx
        · exact .inl (.inl (h5 _ _ hx))
        · exact .inl (.inr (h5 _ _ hx))
        · exact .inr hx
      · cases n <;> simp_all [Node.kind, Node.srefs]
    have hs : 0 < b'.v.c.a.b.strong x := by
      have h3 := B'.heap.good.ledger.s x
      have h4 := nsum_le h1 (B'.heap.good.ledger.lt h1) (fun n => n.srefs.count x)
      have h5 := List.count_pos_iff.2 hx'
      omega
    obtain ⟨m, hm⟩ := B'.heap.good.ledger.node_of_pos hs
    exact .live hm (.node h1 hx' h2)
  | weak h =>
    obtain ⟨k, m, _, h1, h2⟩ := bor h
    exact .ent h1 (by simp [entW]) (.inr h2)
  | out h => exact kh_out S hd h (.inl nV)

end

section
variable {o : Ords} {b b' : BConf α} {i : Nat}

theorem RetI.step (I : RetI b) (A : b.v.c.IA false) (h : b.step o i = .ok b') (ec : b.v.c.step i = .ok b'.v.c) : RetI b' := by
  obtain ⟨c2, e2, A', ge⟩ := A.step (i := i)
  rw [ec] at e2; cases e2
  rcases BConf.step_cases h with ⟨_, rfl⟩ | ⟨cl0, w', v', hi, hw, hv, rfl⟩
  · exact I
  have B := A.bi
  have B' : v'.c.BI := A'.bi
  replace ge : GEvo b.v.c.a v'.c.a := ge
  obtain ⟨w2, e2, L', ec', old⟩ := I.led.step A i
  rw [hw] at e2; cases e2
  replace ec' : w'.c = v'.c := by
    have : b.v.c.step i = .ok v'.c := ec
    rw [show b.v.c.step i = .ok w'.c from ec'] at this
    exact Except.ok.inj this
  have hwk : ∀ x, w'.wk x = if b.v.c.a.b.sk.next ≤ x ∧ x < v'.c.a.b.sk.next then 1 else b.wk x + (callBlocks b.v.c.a cl0).inc.count x := by
    have h3 := hw
    simp only [WConf.step] at h3
    split at h3
    · next hi' => rw [show b.v.c.calls[i]? = none from hi'] at hi; cases hi
    · next cl2 hi' =>
      rw [show b.v.c.calls[i]? = some cl2 from hi'] at hi; cases hi
      obtain ⟨c', e1, e3⟩ := bind_ok h3
      split at e3 <;> cases e3
      simp only at ec'
      rw [← ec']
      intro x; rfl
  have hdu : w'.due = b.due.map (·.1) ++ (callBlocks b.v.c.a cl0).out := by
    have h3 := hw
    simp only [WConf.step] at h3
    split at h3
    · next hi' => rw [show b.v.c.calls[i]? = none from hi'] at hi; cases hi
    · next cl2 hi' =>
      rw [show b.v.c.calls[i]? = some cl2 from hi'] at hi; cases hi
      obtain ⟨c', e1, e3⟩ := bind_ok h3
      split at e3 <;> cases e3
      rfl
  rcases VStp.of B hv with ⟨hi', _⟩ | ⟨cl, cl', push, U, R, N, V, S⟩
  · rw [hi'] at hi; cases hi
  have := S.hi
  rw [hi] at this; cases this
  let b' : BConf α := { b with v := v', wk := w'.wk, due := b.due ++ (callBlocks b.v.c.a cl0).out.map fun x => (x, v'.cv i) }
  have S' : VStp { o with weak := false } b.v b'.v i cl0 cl' push U R N V := S
  have hd : b'.due = b.due ++ (callBlocks b.v.c.a cl0).out.map fun x => (x, b'.v.cv i) := rfl
  have L2 : b'.w.Ledger := by
    have : b'.w = w' := by
      obtain ⟨c, wk, due⟩ := w'
      simp only at ec' hdu
      simp only [b', BConf.w, List.map_append, List.map_map, Function.comp_def, List.map_id', ec', hdu]
    rw [this]; exact L'
  have pre : ∀ x, preObj b.v.c.a v'.c.a cl0 (.node x) ≠ .none → KH b' b.v.log.length x := by
    intro x hx
    rcases preObj_use hx with h | h
    · simp only [New, Arena.made, decide_eq_false_iff_not, decide_eq_true_eq] at h
      obtain ⟨⟨m, hm⟩, hk⟩ := S.make (e := b.v.log.length) B B' (x := x) (by omega) h.2
        (.inl (by rw [S.view]; exact Acc.runs_view (List.mem_cons_self ..)))
      exact .live hm hk
    · refine kh_via S' B ge.evo hd B' (S.via B (fun g hg => ?_) h)
      obtain ⟨y, h1, h2⟩ := I.wd i cl0 g hi hg
      rw [h1, h2.2]
  have post : ∀ x, postObj b.v.c.a v'.c.a (.node x) ≠ .none → KH b' (b.v.log.length + 1) x := by
    intro x hx
    obtain ⟨_, h1, h2⟩ := postObj_free hx
    obtain ⟨n, hn⟩ := Option.isSome_iff_exists.1 h1
    have hn' : v'.c.a.b.sk.node x = none := by simpa [Arena.live] using h2
    exact kh_out S' hd (by rw [S.killed B hn hn']; exact List.mem_cons_self ..) (.inr rfl)
  have new : ∀ (j : Nat) f x, v'.log[j]? = some f → f.obj (.node x) ≠ .none → (j < b.v.log.length ∧ b.v.log[j]? = some f) ∨ KH b' j x := by
    intro j f x hj hf
    rcases S.logs hj with h | ⟨rfl, rfl⟩ | ⟨rfl, rfl⟩
    · exact .inl h
    · exact .inr (pre x hf)
    · exact .inr (post x hf)
  have wk0 : ∀ x, x < b.v.c.a.b.sk.next → b.wk x = 0 → w'.wk x = 0 := old
  exact {
    led := L2
    known := fun j f x hj hf => by
      rcases new j f x hj hf with ⟨_, h⟩ | h
      · exact (I.known j f x h hf).imp id (.imp (fun h => KH.step (b' := b') S' B ge.evo hd h) id)
      · exact .inr (.inl h)
    sound := fun j f x n V hj hf hr => by
      rcases new j f x hj hf with ⟨_, h⟩ | h
      · exact I.sound j f x n V h hf hr
      · obtain ⟨h1, h2⟩ := I.gone x n V hr
        exact absurd (wk0 x h2 h1) (h.there L2 B'.par)
    gone := fun x n V hr => by
      obtain ⟨h1, h2⟩ := I.gone x n V hr
      exact ⟨wk0 x h2 h1, Nat.lt_of_lt_of_le h2 ge.evo.evo.next⟩
    back := fun x hx h0 => by
      replace h0 : w'.wk x = 0 := h0
      rw [hwk x] at h0
      split at h0
      · cases h0
      · next hn =>
        have hx : x < v'.c.a.b.sk.next := hx
        exact I.back x (by omega) (by omega)
    once := I.once
    wd := fun j clj g hj hp => by
      have keep : ∀ clj', b.v.c.calls[j]? = some clj' → clj'.pc = .wd (some g) → clj'.on = clj.on → ∃ x, clj.on = some x ∧ ofG v'.c.a x g := by
        intro clj' h1 h2 h3
        obtain ⟨x, h4, h5⟩ := I.wd j clj' g h1 h2
        exact ⟨x, h3 ▸ h4, Nat.lt_of_lt_of_le h5.1 ge.ng, by rw [ge.gOf g h5.1]; exact h5.2⟩
      by_cases hij : j = i
      · subst hij
        have hs := S.self
        rw [show v'.c.calls[j]? = some clj from hj] at hs; cases hs
        rcases S.how with ⟨t, ts, nw, ht, e, rfl, rfl, rfl, rfl⟩ | ⟨n, ht, hs, rfl, rfl, rfl, rfl⟩
        · exact keep cl0 hi hp rfl
        · exfalso
          replace hp : n.pc = .wd (some g) := hp
          exact hs.no_wd hp
      · exact keep clj ((S.other hij).symm.trans hj) hp rfl }

end

/-! ## Everything else -/

section
variable {b : BConf α} {v' : VConf α}

theorem start_weak {c c' : Conf α} {op : Op α} (h : c.start op = some c') {k x : Nat} {en : Ent} (hk : c.get k = some en) (hx : x ∈ entW en) :
    c'.get k = some en ∨ op.arg = some k ∧ c'.get k = none ∧ ∃ cl, c'.calls[c.calls.length]? = some cl ∧ x ∈ callHold c'.a cl := by
  have no : ∀ {k2 op pc ts} {en2 : Ent}, c.get k2 = some en2 → entW en2 = [] → (c.taking op k2 pc ts).get k = some en := by
    intro k2 op pc ts en2 h1 h2
    refine taking_get_old (fun hkk => ?_) hk
    subst hkk
    rw [h1] at hk; cases hk
    rw [h2] at hx; cases hx
  cases SStep.of h with
  | weakNew => exact .inl (Conf.get_append hk)
  | endMut k2 d g hk2 =>
    left
    have : k ≠ k2 := fun hkk => by
      subst hkk
      rw [hk2] at hk; cases hk
      cases hx
    simp only [Conf.get] at hk ⊢
    rw [List.getElem?_set_ne (fun h => this h.symm)]; exact hk
  | dropW k2 d g m hk2 hb =>
    by_cases hkk : k = k2
    · subst hkk
      rw [hk2] at hk; cases hk
      refine .inr ⟨rfl, ?_, { op := .drop k, pc := .wd g, tasks := [], on := c.node k }, by simp [Conf.taking], ?_⟩
      · cases h : (c.taking (.drop k) k (.wd g)).get k with
        | none => rfl
        | some e2 => exact absurd rfl (taking_get hk2 h).1
      · simp only [callHold, pcHold, Conf.node, hk2]
        exact hx
    · exact .inl (taking_get_old hkk hk)
  | new => exact .inl hk
  | mutNew => exact .inl hk
  | clone => exact .inl hk
  | cloneW => exact .inl hk
  | cloneSide => exact .inl hk
  | downgrade => exact .inl hk
  | upgrade => exact .inl hk
  | getMut _ _ _ hk2 => exact .inl (no hk2 rfl)
  | intoMut _ _ _ hk2 => exact .inl (no hk2 rfl)
  | intoImmut _ _ _ hk2 => exact .inl (no hk2 rfl)
  | splitOff _ _ _ _ hk2 => exact .inl (no hk2 rfl)
  | next _ _ _ _ hk2 => exact .inl (no hk2 rfl)
  | cut _ _ _ _ _ hk2 => exact .inl (no hk2 rfl)
  | dropS _ _ _ hk2 => exact .inl (no hk2 rfl)
  | dropU _ _ _ hk2 => exact .inl (no hk2 rfl)

theorem start_wd {c c' : Conf α} {op : Op α} (h : c.start op = some c') {i g : Nat} {cl : Call α} (hi : c'.calls[i]? = some cl) (hp : cl.pc = .wd (some g)) :
    c.calls[i]? = some cl ∨ ∃ k d m, c.get k = some ⟨.weak d (some g), m⟩ ∧ cl.on = d := by
  have sh : ∀ {op k pc}, (c.shared op k pc).calls[i]? = some cl → pc ≠ .wd (some g) → c.calls[i]? = some cl := fun h hn => by
    rcases shared_calls h with h | ⟨_, rfl⟩
    · exact h
    · exact absurd hp hn
  have tk : ∀ {op k pc ts}, (c.taking op k pc ts).calls[i]? = some cl → pc ≠ .wd (some g) → c.calls[i]? = some cl := fun h hn => by
    rcases taking_calls h with h | ⟨_, rfl⟩
    · exact h
    · exact absurd hp hn
  cases SStep.of h with
  | weakNew => exact .inl hi
  | endMut => exact .inl hi
  | new => 
    rcases plain_calls hi with h | ⟨_, rfl⟩
    · exact .inl h
    · cases hp
  | mutNew => 
    rcases plain_calls hi with h | ⟨_, rfl⟩
    · exact .inl h
    · cases hp
  | dropW k d g' m hk =>
    rcases taking_calls hi with h | ⟨_, rfl⟩
    · exact .inl h
    · cases hp
      exact .inr ⟨k, d, m, hk, by simp [Conf.node, hk]⟩
  | clone => exact .inl (sh hi (by simp))
  | cloneW => exact .inl (sh hi (by simp))
  | cloneSide => exact .inl (sh hi (by simp))
  | downgrade => exact .inl (sh hi (by simp))
  | upgrade => exact .inl (sh hi (by simp))
  | getMut => exact .inl (tk hi (by simp))
  | intoMut => exact .inl (tk hi (by simp))
  | intoImmut => exact .inl (tk hi (by simp))
  | splitOff => exact .inl (tk hi (by simp))
  | next => exact .inl (tk hi (by simp))
  | cut => exact .inl (tk hi (by simp))
  | dropS => exact .inl (tk hi (by simp))
  | dropU => exact .inl (tk hi (by simp))

theorem RetI.start {op : Op α} {X : View} (I : RetI b) (A : b.v.c.IA false) (e : b.v.start op X = some v') : RetI { b with v := v' } := by
  have S : VSta true b.v v' := .of e
  obtain ⟨c', hc, rfl⟩ : ∃ c', b.v.c.start op = some c' ∧ v' = (b.v.begun c' (match op.arg with | none => X | some k => b.v.knows X k (c'.get k).isNone)) := by
    simp only [VConf.start] at e
    split at e
    · cases e
    · next c' hc => cases e; exact ⟨c', hc, rfl⟩
  have ha : c'.a = b.v.c.a := S.a
  have kh : ∀ {e x}, KH b e x → KH { b with v := b.v.begun c' (match op.arg with | none => X | some k => b.v.knows X k (c'.get k).isNone) } e x := by
    intro e x h
    cases h with
    | live hn h => exact .live (by show c'.a.b.sk.node x = _; rw [ha]; exact hn) (S.kn h)
    | kid hn hp h => exact .kid (by show c'.a.b.sk.node _ = _; rw [ha]; exact hn) (by show c'.a.par _ = _; rw [ha]; exact hp) (S.kn h)
    | ent hk hx h =>
      rcases start_weak hc hk hx with h1 | ⟨h1, h2, cl, h3, h4⟩
      · exact .ent h1 hx (by rw [S.hb _ (Conf.get_lt hk)]; exact h)
      · refine .call h3 h4 ?_
        show e ∈ (if _ then _ else _)
        rw [if_pos (Nat.le_refl _), h1]
        simp only
        rw [h2]
        exact mem_knows.2 (.inr (h.imp id fun h => ⟨rfl, h⟩))
    | call hi hx h =>
      obtain ⟨h1, h2⟩ := S.call _ _ hi
      refine .call h1 ?_ (by rw [h2]; exact h)
      show x ∈ callHold c'.a _
      rw [ha]; exact hx
    | due hV h => exact .due hV h
  exact {
    led := ⟨fun x => by show b.wk x = c'.led x + _; rw [led_start hc]; exact I.led.led x,
      fun x hx => I.led.fresh x (by have : c'.a.b.sk.next ≤ x := hx; rw [ha] at this; exact this)⟩
    known := fun j f x hj hf => (I.known j f x hj hf).imp id (.imp kh id)
    sound := I.sound
    gone := fun x n V hr => by
      obtain ⟨h1, h2⟩ := I.gone x n V hr
      exact ⟨h1, by show x < c'.a.b.sk.next; rw [ha]; exact h2⟩
    back := fun x hx h0 => I.back x (by have : x < c'.a.b.sk.next := hx; rw [ha] at this; exact this) h0
    once := I.once
    wd := fun j clj g hj hp => by
      show ∃ x, clj.on = some x ∧ ofG c'.a x g
      rw [ha]
      rcases start_wd hc hj hp with h | ⟨k, d, m, hk, rfl⟩
      · exact I.wd j clj g h hp
      · exact A.gf.ents k _ hk g rfl }

/-- Items are accessed through handle `k`. -/
theorem RetI.access (I : RetI b) (B : b.v.c.BI) {k : Nat} {en : Ent} {f : Ev} (hk : b.v.c.get k = some en) (g : VGrow b.v v') (hp : v'.c.a.par = b.v.c.a.par)
    (hg : v'.c.a.gOf = b.v.c.a.gOf) (hn : v'.c.a.ng = b.v.c.a.ng)
    (hl : v'.log = b.v.log ++ [f]) (hf : f.obj = handleObj en.h) (he : b.v.log.length ∈ v'.hb k ∨ b.v.log.length ∈ v'.ha k) : RetI { b with v := v' } := by
  have ch : ∀ cl, callHold v'.c.a cl = callHold b.v.c.a cl := fun cl => by
    simp only [callHold]
    cases cl.pc <;> simp [pcHold, hp]
  have kh : ∀ {e x}, KH b e x → KH { b with v := v' } e x := by
    intro e x h
    cases h with
    | live hn h => exact .live (by rw [g.sk]; exact hn) (g.kn h)
    | kid hn hp' h => exact .kid (by rw [g.sk]; exact hn) (by rw [hp]; exact hp') (g.kn h)
    | ent hk hx h => exact .ent ((g.get _).trans hk) hx (h.imp (g.hb _ _) (g.ha _ _))
    | call hi hx h => exact .call (by rw [g.calls]; exact hi) (by rw [ch]; exact hx) (by rw [g.cv]; exact h)
    | due hV h => exact .due hV h
  have L : BConf.w { b with v := v' } |>.Ledger := by
    refine ⟨fun x => ?_, fun x hx => I.led.fresh x (by have h : v'.c.a.b.sk.next ≤ x := hx; rw [g.sk] at h; exact h)⟩
    show b.wk x = v'.c.led x + _
    have : v'.c.led x = b.v.c.led x := by
      simp only [Conf.led, g.hs, g.calls, heapW, g.sk, hp]
      rw [flatMap_same (f := callHold v'.c.a) (g := callHold b.v.c.a) fun cl _ => ch cl]
    rw [this]; exact I.led.led x
  have new : ∀ (j : Nat) f' x, v'.log[j]? = some f' → f'.obj (.node x) ≠ .none → b.v.log[j]? = some f' ∨ KH { b with v := v' } j x := by
    intro j f' x hj h
    rw [hl] at hj
    rcases append_call hj with hj | ⟨rfl, rfl⟩
    · exact .inl hj
    · rw [hf] at h
      rcases handleObj_only (h := en.h) (X := .node x) rfl with h' | ⟨_, d, w, h1, h2⟩
      · exact absurd h' h
      · cases h2
        have hx : x ∈ aS (entT en) := by simp [entT, h1, aS]
        have : x ∈ aS b.v.c.T := by
          obtain ⟨t, ht, hx⟩ := List.mem_flatMap.1 hx
          exact mem_aS (Conf.get_tok' hk ht) hx
        obtain ⟨n, hn⟩ := B.heap.live this
        exact .inr (.live (n := n) (by rw [g.sk]; exact hn) (.ent ((g.get k).trans hk) hx he))
  have P : ParOK v'.c.a := ⟨by rw [g.sk, hp]; exact B.par.par, by rw [g.sk, hp]; exact B.par.kid, by rw [g.sk, hp]; exact B.par.root⟩
  exact {
    led := L
    known := fun j f' x hj h => by
      rcases new j f' x hj h with hj | h
      · exact (I.known j f' x hj h).imp id (.imp kh id)
      · exact .inr (.inl h)
    sound := fun j f' x n V hj h hr => by
      rcases new j f' x hj h with hj | h
      · exact I.sound j f' x n V hj h hr
      · exact absurd (I.gone x n V hr).1 (h.there L P)
    gone := fun x n V hr => by rw [g.sk]; exact I.gone x n V hr
    back := fun x hx h0 => I.back x (by rw [← g.sk]; exact hx) h0
    once := I.once
    wd := fun j clj gd hj h => by
      rw [g.calls] at hj
      obtain ⟨x, h1, h2⟩ := I.wd j clj gd hj h
      exact ⟨x, h1, by rw [ofG, hg, hn]; exact h2⟩ }

theorem RetI.read {k j : Nat} {X : View} (I : RetI b) (B : b.v.c.BI) (e : b.v.read k j X = some v') : RetI { b with v := v' } := by
  simp only [VConf.read] at e
  split at e
  · cases e
  next en hk =>
  split at e
  · next bf off len hr =>
    split at e
    · next hj =>
      cases e
      refine I.access B hk ⟨rfl, rfl, rfl, rfl, rfl, ?_, ?_⟩ rfl rfl rfl rfl rfl ?_
      · intro k' e he
        simp only
        split
        · by_cases h : k' = k
          · subst h
            rw [upd_same]
            exact List.mem_cons_of_mem _ (mem_knows.2 (.inr (.inl he)))
          · rw [upd_ne _ _ h]; exact he
        · exact he
      · intro k' e he
        simp only
        split
        · exact he
        · by_cases h : k' = k
          · subst h
            rw [upd_same]
            exact View.mem_join.2 (.inl he)
          · rw [upd_ne _ _ h]; exact he
      · cases hw : Conf.writable en with
        | true =>
          left
          simp only [if_true, upd_same]
          exact List.mem_cons_self ..
        | false =>
          right
          simp only [Bool.false_eq_true, if_false, upd_same]
          exact View.mem_join.2 (.inr (List.mem_cons_self ..))
    · cases e
  · cases e

theorem RetI.write {k j : Nat} {x : α} {X : View} (I : RetI b) (B : b.v.c.BI) (e : b.v.write k j x X = some (.ok v')) : RetI { b with v := v' } := by
  simp only [VConf.write] at e
  split at e
  · cases e
  next en hk =>
  split at e
  · next bf off len hr =>
    split at e
    · next hj =>
      simp only [Option.some.injEq] at e
      obtain ⟨c', e1, e2⟩ := bind_ok e
      cases pure_ok e2
      obtain ⟨s1, s2, s3⟩ := write_same e1
      have hA : c'.a.par = b.v.c.a.par ∧ c'.a.gOf = b.v.c.a.gOf ∧ c'.a.ng = b.v.c.a.ng := by
        rcases Conf.write_cases e1 with rfl | ⟨_, _, rfl⟩ <;> exact ⟨rfl, rfl, rfl⟩
      refine I.access B hk ⟨s1, s2, s3, rfl, rfl, ?_, fun _ _ h => h⟩ hA.1 hA.2.1 hA.2.2 rfl rfl (.inl ?_)
      · intro k' e he
        by_cases h : k' = k
        · subst h
          simp only [upd_same]
          exact List.mem_cons_of_mem _ (mem_knows.2 (.inr (.inl he)))
        · simp only [upd_ne _ _ h]; exact he
      · simp only [upd_same]
        exact List.mem_cons_self ..
    · cases e
  · cases e

/-- A `Weak` is dropped. -/
theorem RetI.release {b' : BConf α} {j : Nat} (I : RetI b) (B : b.v.c.BI) (h : b.release j = .ok b') : RetI b' := by
  simp only [BConf.release] at h
  split at h
  · cases h; exact I
  next x V hj =>
  obtain ⟨w', hw, h⟩ := bind_ok h
  cases h
  obtain ⟨w2, e2, L', ec, old⟩ := I.led.release j
  rw [hw] at e2; cases e2
  have hjw : b.w.due[j]? = some x := by simp [BConf.w, hj]
  have hx : b.wk x ≠ 0 := by
    have h1 : b.wk x = b.v.c.led x + (b.due.map (·.1)).count x := I.led.led x
    have h2 := List.count_pos_iff.2 (List.mem_of_getElem? (show (b.due.map (·.1))[j]? = some x from hjw))
    omega
  have hw' : w' = { b.w with wk := upd b.wk x (b.wk x - 1), due := b.w.due.eraseIdx j } := by
    simp only [WConf.release, hjw] at hw
    split at hw
    · cases hw
    · cases hw; rfl
  have hwk : w'.wk = upd b.wk x (b.wk x - 1) := by rw [hw']
  have noret : ∀ {y}, (∃ r ∈ b.ret, r.1 = y) → b.wk y = 0 := fun ⟨⟨y', n, V⟩, hr, he⟩ => by
    cases he
    exact (I.gone _ n V hr).1
  have tr : x < b.v.c.a.b.sk.next := by
    by_cases h : x < b.v.c.a.b.sk.next
    · exact h
    · exact absurd (I.led.fresh x (Nat.le_of_not_lt h)) hx
  let b' : BConf α := {
      v := { b.v with log := b.v.log ++ [BConf.weakEv x V] }
      wk := w'.wk
      wm := upd b.wm x ((b.wm x).join (b.v.log.length :: V))
      due := b.due.eraseIdx j
      ret := if w'.wk x = 0 then b.ret ++ [(x, b.v.log.length + 1, View.join (b.v.log.length :: V) (b.wm x))] else b.ret }
  have L2 : b'.w.Ledger := by
    have : b'.w = ⟨b.v.c, w'.wk, w'.due⟩ := by
      simp only [b', BConf.w, hw', WConf.mk.injEq, true_and]
      simp [List.eraseIdx_eq_take_drop_succ, List.map_take, List.map_drop]
    rw [this, show b.v.c = w'.c by rw [hw']; rfl]; exact L'
  have wm' : ∀ {e y}, e ∈ b.wm y → e ∈ b'.wm y := by
    intro e y h3
    show e ∈ upd b.wm x _ y
    by_cases hy : y = x
    · subst hy; rw [upd_same]; exact View.mem_join.2 (.inl h3)
    · rw [upd_ne _ _ hy]; exact h3
  have gr : VGrow b.v b'.v := ⟨rfl, rfl, rfl, rfl, rfl, fun _ _ h => h, fun _ _ h => h⟩
  have kh : ∀ {e y}, KH b e y → KH b' e y ∨ y = x ∧ e ∈ V := by
    intro e y h
    cases h with
    | live hn h =>
      exact .inl (.live hn (gr.kn h))
    | kid hn hp h => exact .inl (.kid hn hp (gr.kn h))
    | ent hk hx h => exact .inl (.ent hk hx h)
    | call hi hx h => exact .inl (.call hi hx h)
    | @due W hV h =>
      obtain ⟨l, hl⟩ := List.getElem?_of_mem hV
      by_cases hlj : l = j
      · subst hlj
        rw [hj] at hl; cases hl
        exact .inr ⟨rfl, h⟩
      · refine .inl (.due (V := W) ?_ h)
        exact List.mem_eraseIdx_iff_getElem?.2 ⟨l, hlj, hl⟩
  have mine : ∀ {e}, e ∈ V → e ∈ b'.wm x := fun h => by
    show _ ∈ upd b.wm x _ x
    rw [upd_same]; exact View.mem_join.2 (.inr (List.mem_cons_of_mem _ h))
  have hret : ∀ {y}, (∃ r ∈ b.ret, r.1 = y) → ∃ r ∈ b'.ret, r.1 = y := fun ⟨r, hr, he⟩ => by
    refine ⟨r, ?_, he⟩
    show r ∈ (if _ then _ else _)
    split
    · exact List.mem_append_left _ hr
    · exact hr
  have evs : ∀ {l f y}, b'.v.log[l]? = some f → f.obj (.node y) ≠ .none → b.v.log[l]? = some f ∨ l = b.v.log.length ∧ y = x := by
    intro l f y hl hf
    rcases append_call (l := b.v.log) hl with hl | ⟨rfl, rfl⟩
    · exact .inl hl
    · refine .inr ⟨rfl, ?_⟩
      simp only [BConf.weakEv, Obj.node.injEq] at hf
      by_cases h : y = x
      · exact h
      · rw [if_neg h] at hf; exact absurd rfl hf
  show RetI b'
  exact {
    led := L2
    known := fun l f y hl hf => by
      rcases evs hl hf with hl | ⟨rfl, rfl⟩
      · rcases I.known l f y hl hf with h3 | h3 | h3
        · exact .inl (wm' h3)
        · rcases kh h3 with h3 | ⟨rfl, h3⟩
          · exact .inr (.inl h3)
          · exact .inl (mine h3)
        · exact .inr (.inr (hret h3))
      · left
        show _ ∈ upd b.wm y _ y
        rw [upd_same]; exact View.mem_join.2 (.inr (List.mem_cons_self ..))
    sound := fun l f y n W hl hf hr => by
      have old : (y, n, W) ∈ b.ret → l < n ∧ l ∈ W := fun h3 => by
        rcases evs hl hf with hl | ⟨rfl, rfl⟩
        · exact I.sound l f y n W hl hf h3
        · exact absurd (noret ⟨(y, n, W), h3, rfl⟩) hx
      replace hr : (y, n, W) ∈ (if _ then _ else _) := hr
      split at hr
      · next h0 =>
        rcases List.mem_append.1 hr with hr | hr
        · exact old hr
        · simp only [List.mem_singleton, Prod.mk.injEq] at hr
          obtain ⟨rfl, rfl, rfl⟩ := hr
          rcases evs hl hf with hl | ⟨rfl, _⟩
          · refine ⟨by have := (List.getElem?_eq_some_iff.1 hl).1; omega, View.mem_join.2 ?_⟩
            rcases I.known l f y hl hf with h3 | h3 | h3
            · exact .inr h3
            · rcases kh h3 with h3 | ⟨_, h3⟩
              · exact absurd h0 (h3.there L2 B.par)
              · exact .inl (List.mem_cons_of_mem _ h3)
            · exact absurd (noret h3) hx
          · exact ⟨Nat.lt_succ_self _, View.mem_join.2 (.inl (List.mem_cons_self ..))⟩
      · exact old hr
    gone := fun y n W hr => by
      have old' : (y, n, W) ∈ b.ret → w'.wk y = 0 ∧ y < b.v.c.a.b.sk.next := fun hr => by
        obtain ⟨h1, h2⟩ := I.gone y n W hr
        exact ⟨old y h1, h2⟩
      replace hr : (y, n, W) ∈ (if _ then _ else _) := hr
      split at hr
      · next h0 =>
        rcases List.mem_append.1 hr with hr | hr
        · exact old' hr
        · simp only [List.mem_singleton, Prod.mk.injEq] at hr
          obtain ⟨rfl, rfl, rfl⟩ := hr
          exact ⟨h0, tr⟩
      · exact old' hr
    back := fun y hy h0 => by
      by_cases hyx : y = x
      · subst hyx
        refine ⟨(y, b.v.log.length + 1, View.join (b.v.log.length :: V) (b.wm y)), ?_, rfl⟩
        show _ ∈ (if _ then _ else _)
        rw [if_pos h0]
        exact List.mem_append_right _ (List.mem_singleton.2 rfl)
      · refine hret (I.back y hy ?_)
        have : w'.wk y = 0 := h0
        rw [hwk, upd_ne _ _ hyx] at this; exact this
    once := by
      show ((if _ then _ else _ : List (Nat × Nat × View)).map (·.1)).Nodup
      split
      · rw [List.map_append]
        refine List.nodup_append.2 ⟨I.once, by simp, ?_⟩
        intro y hy z hz hyz
        simp only [List.map_cons, List.map_nil, List.mem_singleton] at hz
        obtain ⟨r, hr, rfl⟩ := List.mem_map.1 hy
        exact hx (noret ⟨r, hr, by rw [hyz, hz]⟩)
      · exact I.once
    wd := I.wd }

theorem RetI.init (zst : Bool) : RetI (BConf.init zst : BConf α) where
  led := .init zst
  known := fun i ev x h => by simp [BConf.init, VConf.init] at h
  sound := fun i ev x n V h => by simp [BConf.init, VConf.init] at h
  gone := fun x n V h => by simp [BConf.init] at h
  back := fun x h => nomatch h
  once := by simp [BConf.init]
  wd := fun i cl g h => by simp [BConf.init, VConf.init, Conf.init] at h

end
end Verif.Arc
