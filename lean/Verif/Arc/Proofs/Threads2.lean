import Verif.Arc.Proofs.Threads
/-!
# Programs made of several calls: calls, and `split_off`
-/

namespace Verif.Arc
open Verif.Spec (Side Slot Rng End)
variable {α β γ : Type} {P P' : Rules α} {zst : Bool} {c c0 c1 c2 c' : Conf α} {W : Nat → Nat → Prop} {M : Conf α → Nat → Prop} {mine mine' : List Nat}
  {X : List (Nat × Seen)} {res : Except Fault β}

theorem sees_shows {k b o l j : Nat} (h : c.Sees k (.shared b o l)) (h1 : o ≤ j) (h2 : j < o + l) : c.Shows k b j := by
  obtain ⟨⟨hh, m⟩, h3, h4⟩ := h
  cases hh with
  | strong d g =>
    simp only [Conf.seen] at h4
    split at h4
    · next v hv => cases h4; exact ⟨_, _, _, h3, by simp only [Conf.range, hv]; rfl, h1, h2⟩
    · cases h4
  | weak d g => cases h4
  | uniq r => cases h4

theorem shows_sees {k b o l b' j : Nat} (h : c.Sees k (.shared b o l)) (hs : c.Shows k b' j) : b' = b ∧ o ≤ j ∧ j < o + l := by
  obtain ⟨⟨hh, m⟩, h3, h4⟩ := h
  obtain ⟨e, o', l', h5, h6, h7⟩ := hs
  rw [h3] at h5; cases h5
  cases hh with
  | strong d g =>
    simp only [Conf.seen] at h4
    split at h4
    · next v hv =>
      cases h4
      simp only [Conf.range, hv] at h6
      cases h6
      exact ⟨rfl, h7⟩
    · cases h4
  | weak d g => cases h4
  | uniq r => cases h4

theorem sees_lt {k : Nat} {v : Seen} (h : c.Sees k v) : k < c.hs.length := by
  obtain ⟨e, h, _⟩ := h; exact c.get_lt h

/-- A drop returns normally if what the handle showed is shown by handles that nobody takes. -/
theorem drop_unit (hP : PTame P) (h : Conf.PReach P zst c0) {k b o l : Nat} (hk : c0.Sees k (.shared b o l)) (hp : P c0 (.drop k))
    (hs : c0.start (.drop k) = some c1) (run : PRun (Others P M) W c1 c2)
    (hc : ∀ j, o ≤ j → j < o + l → ∃ k' o' l', (∀ c, M c k') ∧ c1.Sees k' (.shared b o' l') ∧ o' ≤ j ∧ j < o' + l') :
    ∃ cl, c2.calls[c0.calls.length]? = some cl ∧ cl.pc = .done .unit := by
  have hr1 := h.start _ hp hs
  induction run with
  | refl =>
    obtain ⟨e, h1, h2⟩ := hk
    have tk : ∀ {pc ts}, (c0.taking (.drop k) k pc ts).calls[c0.calls.length]? = some { op := .drop k, pc, tasks := ts, on := c0.node k } := by
      intros; simp [Conf.taking]
    cases SStep.of hs with
    | dropS k d g hk hb => exact ⟨_, tk, rfl⟩
    | dropW k d g m hk hb => rw [h1] at hk; cases hk; cases h2
    | dropU k r m hk hb => exact ⟨_, tk, rfl⟩
  | @step c2 c3 r i e ih =>
    obtain ⟨cl, h1, h2⟩ := ih
    by_cases hi : i = c0.calls.length
    · subst hi
      have hlen := (List.getElem?_eq_some_iff.1 h1).1
      cases CStep.of e with
      | none _ => exact ⟨cl, h1, h2⟩
      | task cl2 t ts a' new hi ht e2 =>
        rw [h1] at hi; cases hi
        refine ⟨{ cl with tasks := new ++ ts, out := cl.out ++ List.range' c2.hs.length 0 }, ?_, h2⟩
        simp only [Conf.after]; exact List.getElem?_set_self hlen
      | pc cl2 a' n hi ht e2 =>
        rw [h1] at hi; cases hi
        rw [h2] at e2; cases e2
        exact ⟨_, by simp only [Conf.after]; exact List.getElem?_set_self hlen, rfl⟩
    · refine ⟨cl, ?_, h2⟩
      rw [← h1]
      cases CStep.of e with
      | none _ => rfl
      | task => simp only [Conf.after]; rw [List.getElem?_set_ne hi]
      | pc => simp only [Conf.after]; rw [List.getElem?_set_ne hi]
  | @start c2 c3 r op hp e ih =>
    obtain ⟨cl, h1, h2⟩ := ih
    refine ⟨cl, ?_, h2⟩
    rcases start_length e with ⟨cl, h3, _⟩ | h3
    · rw [h3, List.getElem?_append_left (List.getElem?_eq_some_iff.1 h1).1]; exact h1
    · rw [h3]; exact h1
  | write r n en j x hn hw _ e ih =>
    obtain ⟨cl, h1, h2⟩ := ih
    refine ⟨cl, ?_, h2⟩
    rcases Conf.write_cases e with rfl | ⟨b, i, rfl⟩ <;> exact h1
  | @panic c2 c3 r i e ih =>
    obtain ⟨cl, h1, h2⟩ := ih
    have hr := r.others.reach hr1
    have hi : i ≠ c0.calls.length := by
      rintro rfl
      rw [(C56_covered hP h hp hs r.others ?_).2] at e
      · cases e
      · intro b' j hsh
        obtain ⟨rfl, h3, h4⟩ := shows_sees hk hsh
        obtain ⟨k', o', l', h5, h6, h7, h8⟩ := hc j h3 h4
        exact ⟨k', sees_shows (r.sees hP hr1 h5 h6) h7 h8⟩
    obtain ⟨cl', rg, ts, ts', us, s, p⟩ := Panicked.of (hr.BI hP).heap e
    refine ⟨cl, ?_, h2⟩
    rw [p.eq]
    show (c2.calls.set i _)[c0.calls.length]? = some cl
    rw [List.getElem?_set_ne hi]; exact h1

/-- What a call of a program does. -/
theorem Runs.call_inv (hP : PTame P) (h : Conf.PReach P zst c) (o : Own c mine X) {op : Op α} {next : Res α → List Nat → Prog α β}
    (run : Runs P W c mine (.call op next) c' mine' res) (hn : ∀ c c' : Conf α, c.start op = some c' → c.calls.length < c'.calls.length) :
    ∃ c0 c1 c2 mine2 r vs ks cl, Conf.PReach P zst c0 ∧ Own c0 mine X ∧ P c0 op ∧ c0.start op = some c1 ∧
      PRun (Others P (Held mine op c0.calls.length)) W c1 c2 ∧ c2.calls[c0.calls.length]? = some cl ∧ cl.pc = .done r ∧
      Conf.PReach P zst c2 ∧ Returns c0 W c2.a.b.slot op r vs ∧ ks.length = vs.length ∧
      Own c2 mine2 (X.filter (fun x => op.takes ≠ some x.1) ++ ks.zip vs) ∧ Runs P W c2 mine2 (next r ks) c' mine' res := by
  cases run with
  | @call _ c0 c1 c2 _ _ _ _ _ cl r' _ r0 hon hp hs r1 hi hf hr r2 =>
    have hr0 := r0.others.reach h
    have o0 := o.env hP h r0
    have hr1 := hr0.start _ hp hs
    have hr2 := r1.others.reach hr1
    obtain ⟨cl', g1, _, g2⟩ := C55_returns hP hr0 hp hs (hn _ _ hs) r1.others
    rw [hi] at g1; cases g1
    obtain ⟨r, vs, m, g3, g4, g5, g6, g7, g8⟩ := g2 hf
    rw [hr] at g3; cases g3
    have out : ∀ k, c2.outOf c0.calls.length k → ∃ v, c2.Sees k v := by
      refine r1.outs hP hr1 (fun c k h => .inr h) ?_ (hn _ _ hs)
      rintro k ⟨cl', h1, h2⟩
      rcases start_call (SStep.of hs) h1 with h3 | ⟨_, _, h3, _⟩
      · have := (List.getElem?_eq_some_iff.1 h3).1; omega
      · rw [h3] at h2; cases h2
    have hz : (cl.out.zip vs).map Prod.fst = cl.out := by rw [List.map_fst_zip]; rw [g5]; simp
    have hx : (X.filter (fun x => op.takes ≠ some x.1)).map Prod.fst = (X.map Prod.fst).filter (fun k => op.takes ≠ some k) := by
      rw [List.filter_map]; rfl
    have lt : ∀ k, k ∈ X.map Prod.fst → k < c0.hs.length := by
      intro k hk
      obtain ⟨⟨k, v⟩, h1, rfl⟩ := List.mem_map.1 hk
      exact sees_lt (o0.sees k v h1)
    refine ⟨c0, c1, c2, _, _, vs, cl.out, cl, hr0, o0, hp, hs, r1, hi, hr, hr2, g4, by rw [g5]; simp, ⟨?_, ?_, ?_⟩, r2⟩
    · rw [List.map_append, hz, hx, List.nodup_append]
      refine ⟨o.nodup.filter _, by rw [g5]; exact List.nodup_range', ?_⟩
      intro a ha b hb
      have h1 := lt a (List.mem_filter.1 ha).1
      rw [g5, List.mem_range'_1] at hb
      omega
    · intro k
      rw [List.map_append, hz, hx, List.mem_append, List.mem_append, List.mem_filter, List.mem_filter, o.mem]
    · intro k v hm
      rcases List.mem_append.1 hm with hm | hm
      · obtain ⟨h1, h2⟩ := List.mem_filter.1 hm
        have h2 : op.takes ≠ some k := by simpa using h2
        refine r1.sees hP hr1 (fun _ => .inl ⟨(o.mem k).2 (List.mem_map_of_mem (f := Prod.fst) h1), h2⟩) ?_
        exact sees_start hP hr0 hs h2 (o0.sees k v h1)
      · obtain ⟨i, hi', h1⟩ := List.getElem_of_mem hm
        simp only [List.getElem_zip, Prod.mk.injEq] at h1
        obtain ⟨h1, h2⟩ := h1
        have hk : k = m + i := by rw [← h1]; simp [g5]
        have hv : vs[i]? = some v := by rw [← h2]; simp
        obtain ⟨v', e, h3, h4⟩ := out k ⟨cl, hi, by rw [← h1]; simp⟩
        exact ⟨e, h3, g8 i v hv e (by rw [← hk]; exact h3)⟩

theorem filter_none (f : Nat → Bool) (h : ∀ k, f k = true) : X.filter (fun x => f x.1) = X := by
  rw [List.filter_eq_self]; intro x _; exact h x.1

/-- `clone`, `clone_left`, `clone_right` in a program. -/
theorem Runs.one_inv (hP : PTame P) (h : Conf.PReach P zst c) (o : Own c mine X) {op : Op α} {V : Conf α → Seen → Prop} {res : Except Fault Nat}
    (run : Runs P W c mine (Prog.one op) c' mine' res) (ht : op.takes = none)
    (hn : ∀ c c' : Conf α, c.start op = some c' → c.calls.length < c'.calls.length)
    (hret : ∀ c s r vs, Returns c W s op r vs → r = .handle ∧ ∃ v, vs = [v] ∧ V c v) :
    ∃ c0 k v, res = .ok k ∧ Own c0 mine X ∧ V c0 v ∧ Conf.PReach P zst c' ∧ Own c' mine' ((k, v) :: X) := by
  obtain ⟨c0, c1, c2, mine2, r, vs, ks, cl, h1, h2, _, _, _, _, _, h3, h4, h5, h6, h7⟩ := run.call_inv hP h o hn
  obtain ⟨rfl, v, rfl, h8⟩ := hret _ _ _ _ h4
  obtain ⟨k, rfl⟩ := List.length_eq_one_iff.1 h5
  cases h7 with
  | ret r =>
    refine ⟨c0, k, v, rfl, h2, h8, r.others.reach h3, ?_⟩
    have h6 := h6.env hP h3 r
    rw [show X.filter (fun x => op.takes ≠ some x.1) = X by rw [List.filter_eq_self]; simp [ht]] at h6
    exact h6.perm List.perm_append_comm

/-- What an `ArcSlice` of these items shows. -/
abbrev Seen.sh (b : Nat) (r : Rng) : Seen := .shared b r.off r.len

theorem Conf.Sees.unique {k : Nat} {v v' : Seen} (h : c.Sees k v) (h' : c.Sees k v') : v = v' := by
  obtain ⟨e, h1, h2⟩ := h
  obtain ⟨e', h3, h4⟩ := h'
  rw [h1] at h3; cases h3
  rw [h2] at h4; cases h4; rfl

theorem Runs.cloneSide_inv (hP : PTame P) (h : Conf.PReach P zst c) (o : Own c mine X) {s : Side} {k b : Nat} {r : Rng} (hk : (k, Seen.sh b r) ∈ X)
    {res : Except Fault Nat} (run : Runs P W c mine (Prog.one (.cloneSide s k)) c' mine' res) :
    ∃ k', res = .ok k' ∧ Conf.PReach P zst c' ∧ Own c' mine' ((k', Seen.sh b (r.half s)) :: X) := by
  obtain ⟨c0, k', v, h1, h2, h3, h4, h5⟩ := run.one_inv hP h o (V := fun c v => ∃ b off len, c.Sees k (.shared b off len) ∧ v = Seen.half s (.shared b off len)) rfl
    (fun c c' e => by cases SStep.of e; simp [Conf.shared])
    (fun c s r vs h => by obtain ⟨h1, b, o, l, h2, h3⟩ := h; exact ⟨h1, _, h3, b, o, l, h2, rfl⟩)
  obtain ⟨b', o', l', h6, rfl⟩ := h3
  have := (h2.sees k _ hk).unique h6
  cases this
  exact ⟨k', h1, h4, h5⟩

theorem Runs.clone_inv (hP : PTame P) (h : Conf.PReach P zst c) (o : Own c mine X) {k : Nat} {v : Seen} (hk : (k, v) ∈ X)
    {res : Except Fault Nat} (run : Runs P W c mine (Prog.one (.clone k)) c' mine' res) :
    ∃ k', res = .ok k' ∧ Conf.PReach P zst c' ∧ Own c' mine' ((k', v) :: X) := by
  obtain ⟨c0, k', v', h1, h2, h3, h4, h5⟩ := run.one_inv hP h o (V := fun c v => c.Sees k v) rfl
    (fun c c' e => by cases SStep.of e <;> simp [Conf.shared])
    (fun c s r vs h => by obtain ⟨h1, v, h2, h3⟩ := h; exact ⟨h1, v, h3, h2⟩)
  cases (h2.sees k _ hk).unique h3
  exact ⟨k', h1, h4, h5⟩

theorem half_cover {r : Rng} {j : Nat} (h1 : r.off ≤ j) (h2 : j < r.off + r.len) : ∃ s, (r.half s).off ≤ j ∧ j < (r.half s).off + (r.half s).len := by
  by_cases h : j < r.off + r.len / 2
  · exact ⟨.L, h1, h⟩
  · refine ⟨.R, ?_, ?_⟩ <;> simp only [Rng.half, Rng.right] <;> omega

/-- `drop` of a handle whose halves are held, in a program. -/
theorem Runs.drop_inv (hP : PTame P) (h : Conf.PReach P zst c) {k b kl kr : Nat} {r : Rng} {Y : List (Nat × Seen)}
    (o : Own c mine ((k, Seen.sh b r) :: Y)) (hl : (kl, Seen.sh b (r.half .L)) ∈ Y) (hr : (kr, Seen.sh b (r.half .R)) ∈ Y) {res : Except Fault Unit}
    (run : Runs P W c mine (Prog.drop k) c' mine' res) :
    res = .ok () ∧ Conf.PReach P zst c' ∧ Own c' mine' Y := by
  obtain ⟨c0, c1, c2, mine2, r', vs, ks, cl, h1, h2, hp, hs, run1, hi, hpc, h3, h4, h5, h6, h7⟩ := run.call_inv hP h o
    (fun c c' e => by cases SStep.of e <;> simp [Conf.taking])
  have nk : ∀ k' v, (k', v) ∈ Y → k' ≠ k := by
    intro k' v hm he
    have := o.nodup
    rw [List.map_cons, List.nodup_cons] at this
    subst he
    have h5 : k' ∈ Y.map Prod.fst := List.mem_map_of_mem (f := Prod.fst) hm
    exact this.1 h5
  have cov : ∀ k' v, (k', v) ∈ Y → (∀ c, Held mine (.drop k : Op α) c0.calls.length c k') ∧ c1.Sees k' v := by
    intro k' v hm
    have hne : (Op.drop k : Op α).takes ≠ some k' := by simp only [Op.takes]; intro h; cases h; exact nk _ _ hm rfl
    have hm' : (k', v) ∈ (k, Seen.sh b r) :: Y := List.mem_cons_of_mem _ hm
    exact ⟨fun _ => .inl ⟨(o.mem k').2 (List.mem_map_of_mem (f := Prod.fst) hm'), hne⟩, sees_start hP h1 hs hne (h2.sees _ _ hm')⟩
  obtain ⟨cl', h8, h9⟩ := drop_unit hP h1 (h2.sees k _ List.mem_cons_self) hp hs run1 (by
    intro j h1 h2
    obtain ⟨s, h3, h4⟩ := half_cover h1 h2
    cases s with
    | L => exact ⟨kl, _, _, (cov _ _ hl).1, (cov _ _ hl).2, h3, h4⟩
    | R => exact ⟨kr, _, _, (cov _ _ hr).1, (cov _ _ hr).2, h3, h4⟩)
  rw [hi] at h8; cases h8
  rw [hpc] at h9; cases h9
  obtain ⟨_, _, rfl⟩ := h4
  rw [List.length_nil] at h5
  cases List.length_eq_zero_iff.1 h5
  cases h7 with
  | ret run2 =>
    refine ⟨rfl, run2.others.reach h3, ?_⟩
    have h6 := h6.env hP h3 run2
    have hY : ((k, Seen.sh b r) :: Y).filter (fun x => (Op.drop k : Op α).takes ≠ some x.1) = Y := by
      rw [List.filter_cons_of_neg (by simp [Op.takes]), List.filter_eq_self]
      rintro ⟨k', v⟩ hm
      have := nk _ _ hm
      simp [Op.takes, Ne.symm this]
    rw [hY] at h6
    simpa using h6

/-- `split_off_left`, `split_off_right` in a program. -/
theorem Runs.splitOff_inv (hP : PTame P) (h : Conf.PReach P zst c) {s : Side} {k b : Nat} {r : Rng} {Y : List (Nat × Seen)}
    (o : Own c mine ((k, Seen.sh b r) :: Y)) {res : Except Fault (Nat × Nat)} (run : Runs P W c mine (splitOffK s k) c' mine' res) :
    ∃ k1 k2, res = .ok (k1, k2) ∧ Conf.PReach P zst c' ∧ Own c' mine' ((k1, Seen.sh b (r.half s)) :: (k2, Seen.sh b (r.half s.flip)) :: Y) := by
  rcases Runs.bind run with ⟨c1, m1, kl, h1, run⟩ | ⟨f, _, h1⟩
  case inr => obtain ⟨_, h2, _⟩ := h1.cloneSide_inv hP h o List.mem_cons_self; cases h2
  obtain ⟨_, h2, hr1, o1⟩ := h1.cloneSide_inv hP h o List.mem_cons_self; cases h2
  rcases Runs.bind run with ⟨c2, m2, kr, h1, run⟩ | ⟨f, _, h1⟩
  case inr => obtain ⟨_, h2, _⟩ := h1.cloneSide_inv hP hr1 o1 (List.mem_cons_of_mem _ List.mem_cons_self); cases h2
  obtain ⟨_, h2, hr2, o2⟩ := h1.cloneSide_inv hP hr1 o1 (List.mem_cons_of_mem _ List.mem_cons_self); cases h2
  have o2 := o2.perm (Y := (k, Seen.sh b r) :: (kl, Seen.sh b (r.half .L)) :: (kr, Seen.sh b (r.half .R)) :: Y) (by
    refine (List.Perm.cons _ (List.Perm.swap ..)).trans ((List.Perm.swap ..).trans (.cons _ (.swap ..))))
  rcases Runs.bind run with ⟨c3, m3, _, h1, run⟩ | ⟨f, _, h1⟩
  case inr => obtain ⟨h2, _⟩ := h1.drop_inv hP hr2 o2 List.mem_cons_self (List.mem_cons_of_mem _ List.mem_cons_self); cases h2
  obtain ⟨_, hr3, o3⟩ := h1.drop_inv hP hr2 o2 List.mem_cons_self (List.mem_cons_of_mem _ List.mem_cons_self)
  cases s with
  | L => cases run with | ret run2 => exact ⟨_, _, rfl, run2.others.reach hr3, o3.env hP hr3 run2⟩
  | R => cases run with | ret run2 => exact ⟨_, _, rfl, run2.others.reach hr3, (o3.env hP hr3 run2).perm (.swap ..)⟩

end Verif.Arc
