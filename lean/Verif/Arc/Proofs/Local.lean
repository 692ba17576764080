import Verif.Arc.Local
import Verif.Arc.Bodies
import Verif.Props.ArcValues
/-!
# A thread among others sees what it would see alone
-/

namespace Verif.Arc
open Verif.Spec (Side Slot Rng End)
variable {α β γ : Type} {P : Rules α} {zst : Bool} {c c0 c1 c2 c' : Conf α} {M M' : Conf α → Nat → Prop} {mine mine' : List Nat} {σ σ' : Store α}

theorem Conf.Is.sees {k : Nat} {v : Val α} (h : c.Is k v) : ∃ v, c.Sees k v := by
  cases v with
  | items xs => obtain ⟨b, off, h | h, _⟩ := h <;> exact ⟨_, h⟩
  | weak => obtain ⟨d, h⟩ := h; exact ⟨_, h⟩

theorem Apart.mono (h : ∀ c k, M' c k → M c k) (r : Apart P M c c') : Apart P M' c c' := by
  induction r with
  | refl => exact .refl
  | step r i e ih => exact ih.step i e
  | start r op hp hM e ih => exact ih.start op hp (fun k ht hm => hM k ht (h _ _ hm)) e
  | write r k en j x hk hw hM e ih => exact ih.write k en j x hk hw (fun hm => hM (h _ _ hm)) e
  | panic r i e ih => exact ih.panic i e

theorem Conf.Is.apart (hP : PStrict P) (h : Conf.PReach P zst c) {k : Nat} {v : Val α} (hk : c.Is k v) (hM : ∀ c, M c k) (ap : Apart P M c c') : c'.Is k v := by
  cases v with
  | items xs => exact C59_constant hP h hk hM ap
  | weak => obtain ⟨d, hd⟩ := hk; exact ⟨d, ap.others.sees hP.tame h hM hd⟩

theorem Believes.apart (hP : PStrict P) (h : Conf.PReach P zst c) (b : Believes c mine σ) (ap : Apart P (fun _ k => k ∈ mine) c c') : Believes c' mine σ :=
  ⟨b.mem, fun k v hk => (b.is k v hk).apart hP h (fun _ => (b.mem k).2 (by rw [hk]; exact Option.some_ne_none _)) ap⟩

/-- The handles that a call does not take. -/
theorem Conf.Is.call (hP : PStrict P) (h : Conf.PReach P zst c0) {k : Nat} {v : Val α} (hk : c0.Is k v) {op : Op α} (hp : P c0 op) (hs : c0.start op = some c1)
    {i : Nat} (hm : k ∈ mine) (ht : op.takes ≠ some k) (r1 : Apart P (Held mine op i) c1 c2) : c2.Is k v :=
  hk.apart hP h (M := fun _ j => j = k) (fun _ => rfl) ((Apart.start .refl op hp (fun j hj e => ht (by rw [hj, e])) hs).trans
    (r1.mono fun _ j (hj : j = k) => .inl (hj ▸ ⟨hm, ht⟩)))

theorem isCall_length {op : Op α} (hc : op.isCall = true) (hs : c0.start op = some c1) : c0.calls.length < c1.calls.length := by
  cases SStep.of hs <;> first | (cases hc; done) | simp [Conf.plain, Conf.shared, Conf.taking]

/-- What to show about a call. -/
theorem Believes.after (hP : PStrict P) (h : Conf.PReach P zst c0) (b : Believes c0 mine σ) {op : Op α} (hp : P c0 op) (hs : c0.start op = some c1)
    {i : Nat} {ks : List Nat} (r1 : Apart P (Held mine op i) c1 c2) (hm : ∀ j, σ' j ≠ none ↔ (σ j ≠ none ∧ op.takes ≠ some j) ∨ j ∈ ks)
    (hi : ∀ j v, σ' j = some v → (σ j = some v ∧ op.takes ≠ some j) ∨ c2.Is j v) :
    Believes c2 (mine.filter (fun k => op.takes ≠ some k) ++ ks) σ' := by
  refine ⟨fun k => ?_, fun k v hk => ?_⟩
  · rw [hm, List.mem_append, List.mem_filter, b.mem]; simp
  · rcases hi k v hk with ⟨h1, h2⟩ | h1
    · exact (b.is k v h1).call hP h hp hs ((b.mem k).2 (by rw [h1]; exact Option.some_ne_none _)) h2 r1
    · exact h1

/-- New handles have new names. -/
theorem Believes.fresh (b : Believes c0 mine σ) {k : Nat} (h : c0.hs.length ≤ k) : σ k = none := by
  cases hk : σ k with
  | none => rfl
  | some v => obtain ⟨_, h1⟩ := (b.is k v hk).sees; have := sees_lt h1; omega

theorem range'_eq {m m' n n' : Nat} (h : List.range' m n = List.range' m' n') : n = n' ∧ (0 < n → m = m') := by
  have h1 := congrArg List.length h
  simp at h1
  subst h1
  refine ⟨rfl, fun h0 => ?_⟩
  cases n with
  | zero => omega
  | succ n => simp [List.range'_succ] at h; exact h.1

theorem plus_ne {m : Nat} {ys : List (List α)} {j : Nat} : (σ.plus m ys) j ≠ none ↔ σ j ≠ none ∨ j ∈ List.range' m ys.length := by
  simp only [Store.plus, List.mem_range'_1]
  split
  · next hj =>
    by_cases hl : j - m < ys.length
    · rw [List.getElem?_eq_getElem hl]; simp; omega
    · rw [List.getElem?_eq_none (by omega)]
      constructor
      · exact .inl
      · rintro (h | h)
        · exact h
        · omega
  · next hj =>
    constructor
    · exact .inl
    · rintro (h | h)
      · exact h
      · omega

theorem plus_some {m : Nat} {ys : List (List α)} {j : Nat} {v : Val α} (h : (σ.plus m ys) j = some v) :
    σ j = some v ∨ ∃ i y, j = m + i ∧ ys[i]? = some y ∧ v = .items y := by
  simp only [Store.plus] at h
  split at h
  · next hj =>
    split at h
    · next y hy => cases h; exact .inr ⟨j - m, y, by omega, hy, rfl⟩
    · exact .inl h
  · exact .inl h

theorem minus_ne {op : Op α} {j : Nat} : (σ.minus op) j ≠ none ↔ σ j ≠ none ∧ op.takes ≠ some j := by
  simp only [Store.minus]
  split
  · next h => simp [h]
  · next h => simp [h]

theorem minus_some {op : Op α} {j : Nat} {v : Val α} (h : (σ.minus op) j = some v) : σ j = some v ∧ op.takes ≠ some j := by
  simp only [Store.minus] at h
  split at h
  · cases h
  · next h' => exact ⟨h, h'⟩

/-- A call among other threads does what it would do alone. -/
theorem Believes.call (hP : PStrict P) (h : Conf.PReach P zst c0) (b : Believes c0 mine σ) {op : Op α} (hc : op.isCall = true)
    (hon : ∀ k, op.on = some k → k ∈ mine) (hp : P c0 op) (hs : c0.start op = some c1) (r1 : Apart P (Held mine op c0.calls.length) c1 c2)
    {cl : Call α} (hi : c2.calls[c0.calls.length]? = some cl) (hf : cl.fin = true) {res : Res α} (hr : cl.pc = .done res) :
    ∃ σ1, Says σ op res cl.out σ1 ∧ Believes c2 (mine.filter (fun k => op.takes ≠ some k) ++ cl.out) σ1 := by
  have hT := hP.tame
  have hr1 : Conf.PReach P zst c1 := h.start op hp hs
  have hr2 := r1.reach hr1
  have hn := isCall_length hc hs
  -- the contract
  obtain ⟨cl', q1, q2, q3⟩ := C55_returns (W := fun _ _ => True) hT h hp hs hn r1.others.others
  rw [hi] at q1; cases q1
  obtain ⟨r, vs, m, q4, q5, q6, q7, q8, q9⟩ := q3 hf
  rw [hr] at q4; cases q4
  -- what is returned is there
  have hout : ∀ k, k ∈ cl.out → ∃ v, c2.Sees k v := by
    have h0 : ∀ k, c1.outOf c0.calls.length k → ∃ v, c1.Sees k v := by
      rintro k ⟨cl', h1, h2⟩
      exfalso
      rcases start_call (.of hs) h1 with h3 | ⟨_, _, h3, _⟩
      · have := (List.getElem?_eq_some_iff.1 h3).1; omega
      · rw [h3] at h2; cases h2
    intro k hk
    exact r1.others.outs hT hr1 (fun c k hk => .inr hk) h0 hn k ⟨cl, hi, hk⟩
  have hseen : ∀ i v, vs[i]? = some v → c2.Sees (m + i) v := by
    intro i v hv
    have hl := (List.getElem?_eq_some_iff.1 hv).1
    obtain ⟨v', e, h1, h2⟩ := hout (m + i) (by rw [q6, List.mem_range'_1]; omega)
    exact ⟨e, h1, q9 i v hv e h1⟩
  have hfr : ∀ i, σ (m + i) = none := fun i => b.fresh (by omega)
  -- a handle that reads, by `Gives`
  have gives : ∀ {k : Nat} {xs : List α}, op.gives = true → op.on = some k → c0.Reads k xs → σ k = some (.items xs) →
      ∃ σ1, Says σ op res cl.out σ1 ∧ Believes c2 (mine.filter (fun k => op.takes ≠ some k) ++ cl.out) σ1 := by
    intro k xs hg ho hk hσ
    have hmono : Apart P (Held [k] op c0.calls.length) c1 c2 := r1.mono fun c j hj => by
      rcases hj with ⟨h1, h2⟩ | h1
      · rw [List.mem_singleton] at h1; subst h1; exact .inl ⟨hon _ ho, h2⟩
      · exact .inr h1
    obtain ⟨cl', p1, _, p3⟩ := C59_values hP h hg ho hk hp hs hmono
    rw [hi] at p1; cases p1
    obtain ⟨r', ys, m', p4, p5, p6, p7⟩ := p3 hf
    rw [hr] at p4; cases p4
    have he := range'_eq (p6.symm.trans q6)
    have hfr' : ∀ i, i < ys.length → σ (m' + i) = none := fun i hi => b.fresh (by have := he.2 (by omega); omega)
    refine ⟨(σ.minus op).plus m' ys, p6 ▸ .gives ho hσ p5 hfr', b.after hP h hp hs r1 (fun j => ?_) fun j v hv => ?_⟩
    · rw [plus_ne, minus_ne, p6]
    · rcases plus_some hv with h1 | ⟨i, y, rfl, h2, rfl⟩
      · exact .inl (minus_some h1)
      · exact .inr (p7 i y h2)
  -- one new handle
  have one : ∀ {v : Val α} {v' : Seen}, op.takes = none → vs = [v'] → c2.Is m v → Says σ op res [m] (σ.put m (some v)) →
      ∃ σ1, Says σ op res cl.out σ1 ∧ Believes c2 (mine.filter (fun k => op.takes ≠ some k) ++ cl.out) σ1 := by
    rintro v v' ht rfl hv hsays
    have : cl.out = [m] := q6
    rw [this]
    refine ⟨_, hsays, b.after hP h hp hs r1 (fun j => ?_) fun j w hw => ?_⟩
    · simp only [Store.put, ht]
      split
      · next hj => subst hj; simp
      · next hj => simp [hj]
    · simp only [Store.put] at hw
      split at hw
      · next hj => cases hw; exact .inr (hj ▸ hv)
      · exact .inl ⟨hw, by rw [ht]; simp⟩
  have none' : op.takes = none → vs = [] → Says σ op res [] σ →
      ∃ σ1, Says σ op res cl.out σ1 ∧ Believes c2 (mine.filter (fun k => op.takes ≠ some k) ++ cl.out) σ1 := by
    rintro ht rfl hsays
    have : cl.out = [] := q6
    rw [this]
    exact ⟨_, hsays, b.after hP h hp hs r1 (fun j => by simp [ht]) fun j w hw => .inl ⟨hw, by simp [ht]⟩⟩
  have hm0 : σ m = none := hfr 0
  -- the handle the call is made on
  have on : ∀ {k : Nat}, op.on = some k → ∃ v, σ k = some v ∧ c0.Is k v := by
    intro k ho
    cases hk : σ k with
    | none => exact absurd hk ((b.mem k).1 (hon k ho))
    | some v => exact ⟨v, rfl, b.is k v hk⟩
  have reads : ∀ {k d g : Nat} {m : Bool} {v : Val α}, c0.get k = some ⟨.strong d g, m⟩ → c0.Is k v → ∃ xs, v = .items xs ∧ c0.Reads k xs := by
    intro k d g m v hk hv
    cases v with
    | items xs => exact ⟨xs, rfl, hv⟩
    | weak => obtain ⟨d', e, h1, h2⟩ := hv; rw [hk] at h1; cases h1; simp only [Conf.seen] at h2; split at h2 <;> cases h2
  have readsU : ∀ {k : Nat} {r : Rc.Reg} {m : Bool} {v : Val α}, c0.get k = some ⟨.uniq r, m⟩ → c0.Is k v → ∃ xs, v = .items xs ∧ c0.Reads k xs := by
    intro k r m v hk hv
    cases v with
    | items xs => exact ⟨xs, rfl, hv⟩
    | weak => obtain ⟨d', e, h1, h2⟩ := hv; rw [hk] at h1; cases h1; cases h2
  have weak : ∀ {k : Nat} {d g : Option Nat} {m : Bool} {v : Val α}, c0.get k = some ⟨.weak d g, m⟩ → c0.Is k v → v = .weak := by
    intro k d g m v hk hv
    cases v with
    | items xs => obtain ⟨_, _, ⟨e, h1, h2⟩ | ⟨e, h1, h2⟩, _⟩ := hv <;> rw [hk] at h1 <;> cases h1 <;> cases h2
    | weak => rfl
  have give : op.gives = true → ∀ {k d g : Nat} {m : Bool}, op.on = some k → c0.get k = some ⟨.strong d g, m⟩ →
      ∃ σ1, Says σ op res cl.out σ1 ∧ Believes c2 (mine.filter (fun k => op.takes ≠ some k) ++ cl.out) σ1 := by
    intro hg k d g m ho hk
    obtain ⟨v, h1, h2⟩ := on ho
    obtain ⟨xs, rfl, h3⟩ := reads hk h2
    exact gives hg ho h3 h1
  have giveU : op.gives = true → ∀ {k : Nat} {r : Rc.Reg} {m : Bool}, op.on = some k → c0.get k = some ⟨.uniq r, m⟩ →
      ∃ σ1, Says σ op res cl.out σ1 ∧ Believes c2 (mine.filter (fun k => op.takes ≠ some k) ++ cl.out) σ1 := by
    intro hg k r m ho hk
    obtain ⟨v, h1, h2⟩ := on ho
    obtain ⟨xs, rfl, h3⟩ := readsU hk h2
    exact gives hg ho h3 h1
  have drop : ∀ {k : Nat}, op = .drop k →
      ∃ σ1, Says σ op res cl.out σ1 ∧ Believes c2 (mine.filter (fun k => op.takes ≠ some k) ++ cl.out) σ1 := by
    rintro k rfl
    obtain ⟨v, h1, h2⟩ := on (k := k) rfl
    obtain ⟨h3, _, rfl⟩ := q5
    have : cl.out = [] := q6
    rw [this]
    have hb : Believes c2 (mine.filter (fun j => (Op.drop k : Op α).takes ≠ some j) ++ []) (σ.put k none) := by
      refine b.after hP h hp hs r1 (fun j => ?_) fun j w hw => ?_
      · simp only [Store.put, Op.takes]
        split
        · next hj => subst hj; simp
        · next hj => simp [Ne.symm hj]
      · simp only [Store.put] at hw
        split at hw
        · cases hw
        · next hj => exact .inl ⟨hw, by simp [Op.takes, Ne.symm hj]⟩
    rcases h3 with rfl | rfl
    · exact ⟨_, .drop h1, hb⟩
    · exact ⟨_, .dropPanic h1, hb⟩
  have news : ∀ {xs : List α}, op = .new xs ∨ op = .mutNew xs →
      ∃ σ1, Says σ op res cl.out σ1 ∧ Believes c2 (mine.filter (fun k => op.takes ≠ some k) ++ cl.out) σ1 := by
    intro xs ho
    have hmono : Apart P (Held [] op c0.calls.length) c1 c2 := r1.mono fun c j hj => by
      rcases hj with ⟨h1, h2⟩ | h1
      · cases h1
      · exact .inr h1
    obtain ⟨cl', p1, _, p3⟩ := C59_new hP h ho hp hs hmono
    rw [hi] at p1; cases p1
    obtain ⟨m', p4, p5, p6⟩ := p3 hf
    rw [hr] at p4; cases p4
    have he := range'_eq (m := m') (n := 1) (p5.symm.trans q6)
    have hm := he.2 (by omega)
    subst hm
    obtain ⟨v', hv'⟩ : ∃ v', vs = [v'] := by
      rcases ho with rfl | rfl
      · obtain ⟨_, b', rfl, _⟩ := q5; exact ⟨_, rfl⟩
      · obtain ⟨_, b', rfl, _⟩ := q5; exact ⟨_, rfl⟩
    have ht : op.takes = none := by rcases ho with rfl | rfl <;> rfl
    refine one (v := .items xs) ht hv' p6 ?_
    rcases ho with rfl | rfl
    · exact .new hm0
    · exact .mutNew hm0
  cases SStep.of hs with
  | new xs => exact news (.inl rfl)
  | mutNew xs => exact news (.inr rfl)
  | weakNew => cases hc
  | endMut => cases hc
  | clone k d g hk => exact give rfl rfl hk
  | cloneSide s k d g hk => exact give rfl rfl hk
  | getMut k d g hk hb => exact give rfl rfl hk
  | intoMut k d g hk hb => exact give rfl rfl hk
  | intoImmut k r _ hk hb => exact giveU rfl rfl hk
  | splitOff s k r _ hk hb => exact giveU rfl rfl hk
  | next e k r _ hk hb => exact giveU rfl rfl hk
  | cut e n k r _ hk hb => exact giveU rfl rfl hk
  | dropS => exact drop rfl
  | dropW => exact drop rfl
  | dropU => exact drop rfl
  | cloneW k d g _ hk =>
    obtain ⟨v, h1, h2⟩ := on (k := k) rfl
    cases weak hk h2
    obtain ⟨rfl, v', h3, rfl⟩ := q5
    have : v' = .weak d := h3.unique ⟨_, hk, rfl⟩
    subst this
    exact one (v := .weak) rfl rfl ⟨d, hseen 0 _ rfl⟩ (.cloneWeak h1 hm0)
  | downgrade k d g hk =>
    obtain ⟨v, h1, h2⟩ := on (k := k) rfl
    obtain ⟨xs, rfl, h3⟩ := reads hk h2
    obtain ⟨rfl, d', g', m', h4, rfl⟩ := q5
    exact one (v := .weak) rfl rfl ⟨_, hseen 0 _ rfl⟩ (.downgrade h1 hm0)
  | upgrade k d g _ hk =>
    obtain ⟨v, h1, h2⟩ := on (k := k) rfl
    cases weak hk h2
    obtain ⟨d', h3, ⟨h4, rfl⟩ | ⟨rfl, d'', rfl, v, h5, rfl⟩⟩ := q5
    · rcases h4 with rfl | rfl
      · exact none' rfl rfl (.upgradeNone h1)
      · exact none' rfl rfl (.upgradePanic h1)
    · have h6 := h5 0 false
      simp only [Conf.seen] at h6
      split at h6
      · next w hw =>
        cases h6
        obtain ⟨ys, _, h7⟩ := C59_reads hT hr2 (.inl (hseen 0 _ rfl))
        exact one (v := .items ys) rfl rfl h7 (.upgrade h1 hm0)
      · cases h6

theorem put_believes {k : Nat} {v : Val α} (b : Believes c0 mine σ) (hm : ∀ j, j ∈ mine' ↔ j ∈ mine ∨ j = k) (hv : c1.Is k v)
    (ho : ∀ j w, j ≠ k → c0.Is j w → c1.Is j w) : Believes c1 mine' (σ.put k (some v)) := by
  refine ⟨fun j => ?_, fun j w hj => ?_⟩
  · rw [hm, b.mem]
    simp only [Store.put]
    split
    · next h => simp [h]
    · next h => simp [h]
  · simp only [Store.put] at hj
    split at hj
    · next h => cases hj; exact h ▸ hv
    · next h => exact ho j w h (b.is j w hj)

theorem endMut_is (hP : PStrict P) (h : Conf.PReach P zst c0) {k j : Nat} {v : Val α} (hp : P c0 (.endMut k)) (hs : c0.start (.endMut k) = some c1)
    (hv : c0.Is j v) : c1.Is j v := by
  by_cases hj : j = k
  · subst hj
    cases SStep.of hs with
    | endMut _ d g hk =>
      have hlt := sees_lt (c := c0) (k := j) (hv.sees.choose_spec)
      have hk' : (({ c0 with hs := c0.hs.set j (some ⟨.strong d g, false⟩) } : Conf α)).get j = some ⟨.strong d g, false⟩ := by
        simp [Conf.get, hlt]
      cases v with
      | weak => obtain ⟨d', e, h1, h2⟩ := hv; rw [hk] at h1; cases h1; simp only [Conf.seen] at h2; split at h2 <;> cases h2
      | items xs =>
        obtain ⟨b, o, h1, h2⟩ := hv
        refine ⟨b, o, .inl ⟨_, hk', ?_⟩, h2⟩
        rcases h1 with ⟨e, h1, h3⟩ | ⟨e, h1, h3⟩ <;> rw [hk] at h1 <;> cases h1
        · simp only [Conf.seen] at h3 ⊢; split at h3 <;> simp_all
        · simp only [Conf.seen] at h3 ⊢; split at h3 <;> simp_all
  · exact hv.apart hP h (M := fun _ i => i = j) (fun _ => rfl) (.start .refl (.endMut k) hp (fun _ hi => nomatch hi) hs)

theorem Conf.Is.items {k : Nat} {v : Val α} {xs : List α} (hv : c.Is k v) (hr : c.Reads k xs) : v = .items xs := by
  cases v with
  | items ys => rw [C59_one hv hr]
  | weak => obtain ⟨d, h1⟩ := hv; obtain ⟨b, o, h2 | h2, _⟩ := hr <;> cases h1.unique h2

/-- A thread among others does what it would do alone. -/
theorem Acts.sole (hP : PStrict P) {p : Body α β} {r : Except Fault β} (run : Acts P c mine p c' mine' r) :
    Conf.PReach P zst c → ∀ {σ}, Believes c mine σ → ∃ σ', Sole σ p σ' r ∧ Believes c' mine' σ' := by
  induction run with
  | ret r => intro h σ b; exact ⟨σ, .ret, b.apart hP h r⟩
  | fault r => intro h σ b; exact ⟨σ, .fault, b.apart hP h r⟩
  | call r0 hc hon hp hs r1 hi hf hr r2 ih =>
    intro h σ b
    have h0 := r0.reach h
    obtain ⟨σ1, s1, b1⟩ := (b.apart hP h r0).call hP h0 hc hon hp hs r1 hi hf hr
    obtain ⟨σ2, s2, b2⟩ := ih (r1.reach (h0.start _ hp hs)) b1
    exact ⟨σ2, .call s1 s2, b2⟩
  | @weakNew c c0 c1 c3 mine mine3 next r r0 hp hs r2 ih =>
    intro h σ b
    have h0 := r0.reach h
    have b0 := b.apart hP h r0
    have b1 : Believes c1 (mine ++ [c0.hs.length]) (σ.put c0.hs.length (some .weak)) := by
      refine put_believes b0 (fun j => by simp) ?_ fun j w _ hj =>
        hj.apart hP h0 (M := fun _ i => i = j) (fun _ => rfl) (.start .refl .weakNew hp (fun _ hi => nomatch hi) hs)
      cases SStep.of hs
      exact ⟨none, ⟨.weak none none, false⟩, by simp [Conf.get], rfl⟩
    obtain ⟨σ2, s2, b2⟩ := ih (h0.start _ hp hs) b1
    exact ⟨σ2, .weakNew (b0.fresh (Nat.le_refl _)) s2, b2⟩
  | endMut r0 hk hp hs r2 ih =>
    intro h σ b
    have h0 := r0.reach h
    have b0 := b.apart hP h r0
    obtain ⟨σ2, s2, b2⟩ := ih (h0.start _ hp hs) ⟨b0.mem, fun j v hj => endMut_is hP h0 hp hs (b0.is j v hj)⟩
    exact ⟨σ2, .endMut s2, b2⟩
  | @len c c0 c3 mine mine3 k xs next r r0 hk hr r2 ih =>
    intro h σ b
    have b0 := b.apart hP h r0
    obtain ⟨σ2, s2, b2⟩ := ih (r0.reach h) b0
    cases hv : σ k with
    | none => exact absurd hv ((b.mem k).1 hk)
    | some v => exact ⟨σ2, .len (by rw [hv, (b0.is k v hv).items hr]) s2, b2⟩
  | @get c c0 c3 mine mine3 k i xs next r r0 hk hr r2 ih =>
    intro h σ b
    have b0 := b.apart hP h r0
    obtain ⟨σ2, s2, b2⟩ := ih (r0.reach h) b0
    cases hv : σ k with
    | none => exact absurd hv ((b.mem k).1 hk)
    | some v => exact ⟨σ2, .get (by rw [hv, (b0.is k v hv).items hr]) s2, b2⟩
  | @set c c0 c1 c3 mine mine3 k i x en next r r0 hk he hw e r2 ih =>
    intro h σ b
    have h0 := r0.reach h
    have b0 := b.apart hP h r0
    have hw' := C59_write hP h0 he hw e
    cases hv : σ k with
    | none => exact absurd hv ((b.mem k).1 hk)
    | some v =>
      have hi := b0.is k v hv
      cases v with
      | weak =>
        exfalso
        obtain ⟨d, e', h1, h2⟩ := hi
        rw [he] at h1; cases h1
        obtain ⟨hh, m⟩ := en
        cases hh with
        | weak => cases hw
        | uniq => cases h2
        | strong => simp only [Conf.seen] at h2; split at h2 <;> cases h2
      | items xs =>
        have b1 : Believes c1 mine (σ.put k (some (.items (xs.set i x)))) := by
          refine put_believes b0 (fun j => ⟨.inl, ?_⟩) (hw'.1 xs hi) fun j w hj hjw => ?_
          · rintro (h | rfl)
            · exact h
            · exact hk
          · exact hjw.apart hP h0 (M := fun _ i => i = j) (fun _ => rfl) (.write .refl k en i x he hw (fun h => hj h.symm) e)
        obtain ⟨σ2, s2, b2⟩ := ih ((Apart.write .refl k en i x he hw (M := fun _ _ => False) (fun h => h) e).reach h0) b1
        exact ⟨σ2, .set hv s2, b2⟩

/-- The handles that are there are something. -/
theorem believes_of (hP : PTame P) (h : Conf.PReach P zst c) (hm : ∀ k, k ∈ mine → ∃ v, c.Sees k v) : ∃ σ, Believes c mine σ := by
  have key : ∀ k, k ∈ mine → ∃ v, c.Is k v := by
    intro k hk
    obtain ⟨v, hv⟩ := hm k hk
    cases v with
    | shared b o l => obtain ⟨xs, _, h1⟩ := C59_reads hP h (.inl hv); exact ⟨.items xs, h1⟩
    | uniq b o l => obtain ⟨xs, _, h1⟩ := C59_reads hP h (.inr hv); exact ⟨.items xs, h1⟩
    | weak d => exact ⟨.weak, d, hv⟩
  classical
  refine ⟨fun k => if hk : k ∈ mine then some (key k hk).choose else none, fun k => ?_, fun k v hv => ?_⟩
  · by_cases hk : k ∈ mine <;> simp [hk]
  · by_cases hk : k ∈ mine
    · simp only [hk, dif_pos] at hv; cases hv; exact (key k hk).choose_spec
    · simp [hk] at hv

theorem Believes.reads (b : Believes c mine σ) {k : Nat} {xs : List α} (hk : k ∈ mine) (hr : c.Reads k xs) : σ k = some (.items xs) := by
  cases hv : σ k with
  | none => exact absurd hv ((b.mem k).1 hk)
  | some v => rw [(b.is k v hv).items hr]

end Verif.Arc
