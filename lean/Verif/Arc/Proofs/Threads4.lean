import Verif.Arc.Proofs.Threads3
import Verif.Props.ArcLive
/-!
# Programs made of several calls come to an end
-/

namespace Verif.Arc
open Verif.Spec (Side Slot Rng End parts)
variable {α β γ : Type} {P : Rules α} {zst : Bool} {c c0 c1 c2 c' : Conf α} {W : Nat → Nat → Prop} {mine mine' : List Nat} {X Y : List (Nat × Seen)}

/-- The rules do not restrict the calls made by `split_off` and the iterators over parts, nor the end of a mutable borrow. -/
structure Permits (P : Rules α) : Prop where
  clone : ∀ c k, P c (.clone k)
  side : ∀ c s k, P c (.cloneSide s k)
  drop : ∀ c k, P c (.drop k)
  endMut : ∀ c k, P c (.endMut k)

theorem PRun.length {Q : Rules α} (r : PRun Q W c c') : c.calls.length ≤ c'.calls.length := by
  induction r with
  | refl => exact Nat.le_refl _
  | step r i e ih => rw [step_length e]; exact ih
  | start r op hp e ih =>
    rcases start_length e with ⟨cl, h, _⟩ | h
    · rw [h, List.length_append]; omega
    · rw [h]; exact ih
  | write r k en j x hk hw hW e ih =>
    unfold Conf.write at e
    obtain ⟨o, _, e⟩ := Arc.bind_ok e
    cases o with
    | none => cases e; exact ih
    | some x =>
      obtain ⟨b, off, len⟩ := x
      simp only at e
      split at e
      · obtain ⟨h, _, e⟩ := Arc.bind_ok e
        cases e; exact ih
      · cases e; exact ih
  | panic r i e ih =>
    unfold Conf.panic at e
    split at e
    · split at e
      · cases e; simpa using ih
      · cases e
    · cases e

/-- All calls in flight can return. -/
theorem finish (hP : PTame P) {Q : Rules α} (h : Conf.PReach P zst c) : ∃ c', PRun Q W c c' ∧ Conf.PReach P zst c' ∧ c'.Quiet := by
  have wf := (Prod.lex ⟨(· < ·), Nat.lt_wfRel.wf⟩ ⟨(· < ·), Nat.lt_wfRel.wf⟩).wf
  have key : ∀ (x : Nat × Nat) (c : Conf α), Conf.PReach P zst c → c.mu = x → ∃ c', PRun Q W c c' ∧ Conf.PReach P zst c' ∧ c'.Quiet := by
    intro x
    induction x using wf.induction with
    | h x ih =>
      intro c h hx
      by_cases hq : c.Quiet
      · exact ⟨c, .refl, h, hq⟩
      · obtain ⟨i, c2, h1, h2⟩ := no_deadlock (h.IA' hP) hq
        obtain ⟨c3, h3, _, h4⟩ := (h.IA' hP).step (i := i)
        rw [h1] at h3; cases h3
        rcases (h.BI hP).down h4.evo h1 with ⟨h5, _⟩ | h5
        · exact absurd h5 h2
        · obtain ⟨c', g1, g2⟩ := ih _ (by rw [← hx]; exact h5) c2 (h.run i h1) rfl
          exact ⟨c', (PRun.step .refl i h1).trans g1, g2⟩
  exact key _ c h rfl

theorem Quiet.free (hq : c.Quiet) (k : Nat) : c.borrowed k = false := by
  unfold Conf.borrowed
  rw [List.any_eq_false]
  intro cl hc
  simp [hq cl hc]

/-- The thread waits until nothing goes on, and nobody borrows `k` mutably. -/
theorem settle (hP : PTame P) (hE : Permits P) (h : Conf.PReach P zst c) {M : Conf α → Nat → Prop} {k b : Nat} {r : Rng} (hk : c.Sees k (Seen.sh b r))
    (hM : ∀ c, M c k) : ∃ c' d g, PRun (Others P M) W c c' ∧ Conf.PReach P zst c' ∧ c'.Quiet ∧ c'.get k = some ⟨.strong d g, false⟩ := by
  obtain ⟨c1, h1, h2, h3⟩ := finish (W := W) (Q := Others P M) hP h
  obtain ⟨e, h4, h5⟩ := h1.sees hP h hM hk
  obtain ⟨hd, m⟩ := e
  cases hd with
  | weak => cases h5
  | uniq => cases h5
  | strong d g =>
    cases m with
    | false => exact ⟨c1, d, g, h1, h2, h3, h4⟩
    | true =>
      have hs : c1.start (.endMut k) = some { c1 with hs := c1.hs.set k (some ⟨.strong d g, false⟩) } := by simp only [Conf.start, h4]
      have hlt : k < c1.hs.length := by
        unfold Conf.get at h4
        cases hh : c1.hs[k]? with
        | none => rw [hh] at h4; cases h4
        | some _ => exact (List.getElem?_eq_some_iff.1 hh).1
      refine ⟨_, d, g, .start h1 (.endMut k) ⟨hE.endMut _ _, fun _ h => by cases h⟩ hs, .start h2 _ (hE.endMut _ _) hs, h3, ?_⟩
      show ((c1.hs.set k (some ⟨.strong d g, false⟩))[k]?).join = _
      rw [List.getElem?_set_self hlt]; rfl

/-- The program can come to an end. -/
def Ends (P : Rules α) (W : Nat → Nat → Prop) (c : Conf α) (mine : List Nat) (p : Prog α β) : Prop := ∃ c' mine' res, Runs P W c mine p c' mine' res

theorem Ends.ret (b : β) : Ends P W c mine (.ret b) := ⟨c, mine, _, .ret .refl⟩
theorem Ends.fault (f : Fault) : Ends P W c mine (.fault f : Prog α β) := ⟨c, mine, _, .fault .refl⟩

theorem Runs.pre {p : Prog α β} {res : Except Fault β} (r0 : PRun (Others P fun _ k => k ∈ mine) W c c1) (h : Runs P W c1 mine p c' mine' res) : Runs P W c mine p c' mine' res := by
  cases h with
  | ret r => exact .ret (r0.trans r)
  | fault r => exact .fault (r0.trans r)
  | call r hon hp hs r1 hi hf hr r2 => exact .call (r0.trans r) hon hp hs r1 hi hf hr r2

theorem Runs.comp {p : Prog α β} {q : β → Prog α γ} {m1 : List Nat} {b : β} {res : Except Fault γ} (h1 : Runs P W c mine p c1 m1 (.ok b))
    (h2 : Runs P W c1 m1 (q b) c' mine' res) : Runs P W c mine (p >>= q) c' mine' res := by
  show Runs P W c mine (p.bind q) c' mine' res
  induction p generalizing c mine with
  | ret b => cases h1 with | ret r => exact h2.pre r
  | fault f => cases h1
  | call op next ih =>
    cases h1 with
    | call r0 hon hp hs r1 hi hf hr r2 => exact .call r0 hon hp hs r1 hi hf hr (ih _ _ r2)

theorem Runs.comp_fault {p : Prog α β} {q : β → Prog α γ} {f : Fault} (h1 : Runs P W c mine p c' mine' (.error f)) :
    Runs P W c mine (p >>= q) c' mine' (.error f) := by
  show Runs P W c mine (p.bind q) c' mine' _
  induction p generalizing c mine with
  | ret b => cases h1
  | fault f => cases h1 with | fault r => exact .fault r
  | call op next ih =>
    cases h1 with
    | call r0 hon hp hs r1 hi hf hr r2 => exact .call r0 hon hp hs r1 hi hf hr (ih _ _ r2)

theorem Ends.bind {p : Prog α β} {q : β → Prog α γ} (h1 : Ends P W c mine p)
    (h2 : ∀ c' mine' b, Runs P W c mine p c' mine' (.ok b) → Ends P W c' mine' (q b)) : Ends P W c mine (p >>= q) := by
  obtain ⟨c1, m1, res, h1⟩ := h1
  cases res with
  | ok b =>
    obtain ⟨c2, m2, r, h3⟩ := h2 _ _ _ h1
    exact ⟨c2, m2, r, h1.comp h3⟩
  | error f => exact ⟨c1, m1, _, h1.comp_fault⟩

/-- A call that can be made returns. -/
theorem Ends.call (hP : PTame P) {op : Op α} {next : Res α → List Nat → Prog α β} (hon : ∀ k, op.on = some k → k ∈ mine)
    (r0 : PRun (Others P fun _ k => k ∈ mine) W c c0) (h0 : Conf.PReach P zst c0) (hp : P c0 op) (hs : c0.start op = some c1)
    (hn : c1.calls.length = c0.calls.length + 1) (hx : ∀ r ks c mine, Ends P W c mine (next r ks)) : Ends P W c mine (.call op next) := by
  have h1 := h0.start _ hp hs
  obtain ⟨c2, r1, h2, hq⟩ := finish (W := W) (Q := Others P (Held mine op c0.calls.length)) hP h1
  have hl : c0.calls.length < c2.calls.length := Nat.lt_of_lt_of_le (by omega) r1.length
  obtain ⟨cl, hi⟩ : ∃ cl, c2.calls[c0.calls.length]? = some cl := ⟨_, List.getElem?_eq_getElem hl⟩
  have hf := hq cl (List.mem_of_getElem? hi)
  obtain ⟨res, hr⟩ : ∃ res, cl.pc = .done res := by
    unfold Call.fin at hf
    cases hpc : cl.pc <;> simp [hpc, Pc.isDone] at hf
    exact ⟨_, rfl⟩
  obtain ⟨c3, m3, r, h3⟩ := hx res cl.out c2 (mine.filter (fun k => op.takes ≠ some k) ++ cl.out)
  exact ⟨c3, m3, r, .call r0 hon hp hs r1 hi hf hr h3⟩

theorem Ends.cloneSide (hP : PTame P) (hE : Permits P) (h : Conf.PReach P zst c) (o : Own c mine X) {s : Side} {k b : Nat} {r : Rng} (hk : (k, Seen.sh b r) ∈ X) :
    Ends P W c mine (Prog.one (.cloneSide s k)) := by
  have hm : k ∈ mine := (o.mem k).2 (List.mem_map_of_mem (f := Prod.fst) hk)
  obtain ⟨c0, d, g, r0, h0, hq, hg⟩ := settle (W := W) (M := fun _ k => k ∈ mine) hP hE h (o.sees _ _ hk) (fun _ => hm)
  refine Ends.call hP (fun k' e => by cases e; exact hm) r0 h0 (hE.side _ _ _) (c1 := c0.shared (.cloneSide s k) k (.wait d g s)) (by simp only [Conf.start, hg])
    (by simp [Conf.shared]) fun r ks c mine => ?_
  split
  · exact .ret _
  · exact .fault _

theorem Ends.clone (hP : PTame P) (hE : Permits P) (h : Conf.PReach P zst c) (o : Own c mine X) {k b : Nat} {r : Rng} (hk : (k, Seen.sh b r) ∈ X) :
    Ends P W c mine (Prog.one (.clone k)) := by
  have hm : k ∈ mine := (o.mem k).2 (List.mem_map_of_mem (f := Prod.fst) hk)
  obtain ⟨c0, d, g, r0, h0, hq, hg⟩ := settle (W := W) (M := fun _ k => k ∈ mine) hP hE h (o.sees _ _ hk) (fun _ => hm)
  refine Ends.call hP (fun k' e => by cases e; exact hm) r0 h0 (hE.clone _ _) (c1 := c0.shared (.clone k) k (.cl1 d g)) (by simp only [Conf.start, hg])
    (by simp [Conf.shared]) fun r ks c mine => ?_
  split
  · exact .ret _
  · exact .fault _

theorem Ends.drop (hP : PTame P) (hE : Permits P) (h : Conf.PReach P zst c) (o : Own c mine X) {k b : Nat} {r : Rng} (hk : (k, Seen.sh b r) ∈ X) :
    Ends P W c mine (Prog.drop k) := by
  have hm : k ∈ mine := (o.mem k).2 (List.mem_map_of_mem (f := Prod.fst) hk)
  obtain ⟨c0, d, g, r0, h0, hq, hg⟩ := settle (W := W) (M := fun _ k => k ∈ mine) hP hE h (o.sees _ _ hk) (fun _ => hm)
  refine Ends.call hP (fun k' e => by cases e; exact hm) r0 h0 (hE.drop _ _) (c1 := c0.taking (.drop k) k (.done .unit) [.slice d g])
    (by simp only [Conf.start, hg, Quiet.free hq k, Bool.false_eq_true, if_false])
    (by simp [Conf.taking]) fun r ks c mine => ?_
  split
  · exact .ret _
  · exact .fault _

theorem Ends.splitOff (hP : PTame P) (hE : Permits P) (h : Conf.PReach P zst c) {s : Side} {k b : Nat} {r : Rng} (o : Own c mine ((k, Seen.sh b r) :: Y)) :
    Ends P W c mine (splitOffK s k) := by
  refine (Ends.cloneSide hP hE h o List.mem_cons_self).bind fun c1 m1 k1 run1 => ?_
  obtain ⟨_, h2, hr1, o1⟩ := run1.cloneSide_inv hP h o List.mem_cons_self; cases h2
  refine (Ends.cloneSide hP hE hr1 o1 (List.mem_cons_of_mem _ List.mem_cons_self)).bind fun c2 m2 k2 run2 => ?_
  obtain ⟨_, h2, hr2, o2⟩ := run2.cloneSide_inv hP hr1 o1 (List.mem_cons_of_mem _ List.mem_cons_self); cases h2
  refine (Ends.drop hP hE hr2 o2 (List.mem_cons_of_mem _ (List.mem_cons_of_mem _ List.mem_cons_self))).bind fun c3 m3 _ _ => ?_
  cases s <;> exact .ret _

theorem Ends.frontLoop_some (hP : PTame P) (hE : Permits P) {s : Side} {b : Nat} (j : Nat) {i : Nat} {r : Rng} {dq : List Nat} {cap : Nat}
    (h : Conf.PReach P zst c) (o : Own c mine ((i, Seen.sh b r) :: Y)) :
    Ends P W c mine (BinaryPartsIter.frontLoop (splitOffK s) (2 ^ j) (some i) ⟨dq, cap⟩) := by
  induction j generalizing c mine i r Y dq cap with
  | zero =>
    rw [BinaryPartsIter.frontLoop]
    simp only [Nat.pow_zero]
    exact .ret _
  | succ j ih =>
    have hp := Nat.two_pow_pos j
    rw [BinaryPartsIter.frontLoop, dif_neg (by rw [Nat.pow_succ]; omega), and1, if_pos (by rw [Nat.pow_succ]; omega), shr1,
      show 2 ^ (j + 1) / 2 = 2 ^ j by rw [Nat.pow_succ]; omega]
    simp only [Deque.pushFront]
    refine (Ends.splitOff hP hE h o).bind fun c1 m1 x run => ?_
    obtain ⟨_, _, h2, hr1, o1⟩ := run.splitOff_inv hP h o; cases h2
    exact ih hr1 o1

theorem Ends.frontLoop_none (hP : PTame P) (hE : Permits P) {s : Side} {b : Nat} (j : Nat) {x : Nat} {r : Rng} {dq : List Nat} {cap : Nat}
    (h : Conf.PReach P zst c) (o : Own c mine ((x, Seen.sh b r) :: Y)) :
    Ends P W c mine (BinaryPartsIter.frontLoop (splitOffK s) (2 ^ (j + 1)) none ⟨x :: dq, cap⟩) := by
  have hp := Nat.two_pow_pos j
  rw [BinaryPartsIter.frontLoop, dif_neg (by rw [Nat.pow_succ]; omega), and1, if_pos (by rw [Nat.pow_succ]; omega), shr1,
    show 2 ^ (j + 1) / 2 = 2 ^ j by rw [Nat.pow_succ]; omega]
  simp only
  refine (Ends.splitOff hP hE h o).bind fun c1 m1 x run => ?_
  obtain ⟨_, _, h2, hr1, o1⟩ := run.splitOff_inv hP h o; cases h2
  exact .frontLoop_some hP hE j hr1 o1

theorem Ends.next (hP : PTame P) (hE : Permits P) (h : Conf.PReach P zst c) {b m f nb cap umax : Nat} {debug : Bool} {r : Rng} {it : BinaryPartsIter Nat}
    (I : ItOwn c mine b r m f nb cap it Y) (hfb : f + nb < 2 ^ m) : Ends P W c mine (nextPart umax debug .front it) := by
  obtain ⟨ks, rfl, hks, o⟩ := I.ex
  obtain ⟨j, x, rest, h1, h2, h3, h4⟩ := pend_front Rng.left Rng.right m f nb r hfb
  obtain ⟨n, j', g1, g2, g3⟩ := maxPow_exists (m := Prog α) (2 ^ m - f) (2 ^ m - f - nb) (by omega) (by omega)
  have hj := g3.unique h2
  subst hj
  rw [h1] at hks
  obtain ⟨⟨kx, x'⟩, kr, rfl, rfl, hkr⟩ := map_eq_cons' hks
  have o : Own c mine ((kx, Seen.sh b x') :: (inB b kr ++ Y)) := o
  change Ends P W c mine (BinaryPartsIter.next (splitOffK .L) umax debug _)
  unfold BinaryPartsIter.next
  rw [BinaryPartsIter.len_eq _ (by simp; omega)]
  simp only [pure_bind]
  rw [if_neg (by omega)]
  simp only [List.map_cons, List.length_cons, Nat.add_eq_zero_iff, Nat.succ_ne_self, and_false, Bool.and_eq_true,
    beq_iff_eq, if_false]
  rw [show subU (m := Prog α) (2 ^ m) f = pure (2 ^ m - f) by unfold subU; rw [if_pos (by omega)]]
  simp only [pure_bind, g1, g2]
  refine Ends.bind ?_ fun c1 m1 x _ => ?_
  · cases j' with
    | zero => rw [Nat.pow_zero, BinaryPartsIter.frontLoop_one]; exact .ret _
    | succ j' => exact .frontLoop_none hP hE j' h o
  · split
    · exact .fault _
    · refine Ends.bind ?_ fun c2 m2 y _ => ?_
      · unfold addU; split
        · exact .ret _
        · exact .fault _
      · split <;> exact .ret _

theorem Ends.nextBack (hP : PTame P) (hE : Permits P) (h : Conf.PReach P zst c) {b m f nb cap umax : Nat} {debug : Bool} {r : Rng} {it : BinaryPartsIter Nat}
    (I : ItOwn c mine b r m f nb cap it Y) (hfb : f + nb < 2 ^ m) : Ends P W c mine (nextPart umax debug .back it) := by
  obtain ⟨ks, rfl, hks, o⟩ := I.ex
  obtain ⟨j, x, rest, h1, h2, h3, h4⟩ := pend_front Rng.right Rng.left m nb f r (by omega)
  obtain ⟨n, j', g1, g2, g3⟩ := maxPow_exists (m := Prog α) (2 ^ m - nb) (2 ^ m - nb - f) (by omega) (by omega)
  have hj := g3.unique h2
  subst hj
  obtain ⟨kx, rfl⟩ : ∃ ks', ks = ks'.reverse := ⟨ks.reverse, by simp⟩
  rw [pend_mirror, h1, List.map_reverse, List.reverse_inj] at hks
  obtain ⟨⟨kx, x'⟩, kr, rfl, rfl, hkr⟩ := map_eq_cons' hks
  have o : Own c mine ((kx, Seen.sh b x') :: (inB b kr.reverse ++ Y)) := by
    refine o.perm ?_
    rw [List.reverse_cons, inB_append, List.append_assoc]
    exact List.perm_middle
  change Ends P W c mine (BinaryPartsIter.nextBack (splitOffK .R) umax debug _)
  unfold BinaryPartsIter.nextBack
  rw [BinaryPartsIter.len_eq _ (by simp; omega)]
  simp only [pure_bind]
  rw [if_neg (by omega)]
  rw [List.map_reverse]
  simp only [List.map_cons, List.length_reverse, List.length_cons, Nat.add_eq_zero_iff, Nat.succ_ne_self, and_false, Bool.and_eq_true,
    beq_iff_eq, if_false]
  rw [show subU (m := Prog α) (2 ^ m) nb = pure (2 ^ m - nb) by unfold subU; rw [if_pos (by omega)]]
  rw [show 2 ^ m - f - nb = 2 ^ m - nb - f by omega]
  simp only [pure_bind, g1, g2, BinaryPartsIter.backLoop_mirror]
  rw [bind_map_left]
  refine Ends.bind ?_ fun c1 m1 x _ => ?_
  · cases j' with
    | zero => rw [Nat.pow_zero, BinaryPartsIter.frontLoop_one]; exact .ret _
    | succ j' => exact .frontLoop_none hP hE j' h o
  · simp only []
    split
    · exact .fault _
    · refine Ends.bind ?_ fun c2 m2 y _ => ?_
      · unfold addU; split
        · exact .ret _
        · exact .fault _
      · split <;> exact .ret _

theorem Ends.next_done {m f nb cap umax : Nat} {debug : Bool} {ks : List Nat} (hfb : f + nb = 2 ^ m) {e : End} :
    Ends P W c mine (nextPart umax debug e ⟨2 ^ m, f, nb, ⟨ks, cap⟩⟩) := by
  have hn : nextPart (α := α) umax debug e ⟨2 ^ m, f, nb, ⟨ks, cap⟩⟩ = .ret (none, ⟨2 ^ m, f, nb, ⟨ks, cap⟩⟩) := by
    cases e
    · exact (BinaryPartsIter.next_done (m := Prog α) umax debug _ hfb).1
    · exact (BinaryPartsIter.next_done (m := Prog α) umax debug _ hfb).2
  rw [hn]; exact .ret _

theorem Ends.cloneAll (hP : PTame P) (hE : Permits P) {b : Nat} : ∀ {ks : List (Nat × Rng)} {c : Conf α} {mine : List Nat} {Y : List (Nat × Seen)},
    Conf.PReach P zst c → Own c mine Y → (∀ x ∈ inB b ks, x ∈ Y) → Ends P W c mine (cloneAll (ks.map Prod.fst)) := by
  intro ks
  induction ks with
  | nil => intro c mine Y _ _ _; exact .ret _
  | cons x ks ih =>
    intro c mine Y h o hs
    have hx := hs _ (List.mem_cons_self ..)
    refine (Ends.clone hP hE h o hx).bind fun c1 m1 k1 run => ?_
    obtain ⟨_, h2, hr1, o1⟩ := run.clone_inv hP h o hx; cases h2
    refine (ih hr1 o1 fun y hy => List.mem_cons_of_mem _ (hs y (List.mem_cons_of_mem _ hy))).bind fun c2 m2 l _ => .ret _

end Verif.Arc
