import Verif.Arc.Proofs.Threads2
/-!
# Programs made of several calls: the loops of `ArcSliceParts`
-/

namespace Verif.Arc
open Verif.Spec (Side Slot Rng End parts)
variable {α β γ : Type} {P : Rules α} {zst : Bool} {c c0 c1 c2 c' : Conf α} {W : Nat → Nat → Prop} {mine mine' : List Nat}

/-- Handles and what they show, in buffer `b`. -/
abbrev inB (b : Nat) (ks : List (Nat × Rng)) : List (Nat × Seen) := ks.map fun x => (x.1, Seen.sh b x.2)

theorem inB_append (b : Nat) (ks ks' : List (Nat × Rng)) : inB b (ks ++ ks') = inB b ks ++ inB b ks' := List.map_append

theorem Runs.frontLoop_some (hP : PTame P) {s : Side} {b : Nat} (j : Nat) {i : Nat} {r : Rng} {Y : List (Nat × Seen)} {dq : List Nat} {cap : Nat}
    {res : Except Fault (Option Nat × Deque Nat)} (h : Conf.PReach P zst c) (o : Own c mine ((i, Seen.sh b r) :: Y))
    (run : Runs P W c mine (BinaryPartsIter.frontLoop (splitOffK s) (2 ^ j) (some i) ⟨dq, cap⟩) c' mine' res) :
    ∃ i' ks, res = .ok (some i', ⟨ks.map Prod.fst ++ dq, if j = 0 then cap else max cap (dq.length + j)⟩) ∧
      ks.map Prod.snd = unroll (Rng.half · s) (Rng.half · s.flip) j r ∧ Conf.PReach P zst c' ∧
      Own c' mine' ((i', Seen.sh b (leftmost (Rng.half · s) j r)) :: (inB b ks ++ Y)) := by
  induction j generalizing c mine i r Y dq cap with
  | zero =>
    rw [BinaryPartsIter.frontLoop] at run
    simp only [Nat.pow_zero] at run
    cases run with
    | ret run => exact ⟨i, [], rfl, rfl, run.others.reach h, o.env hP h run⟩
  | succ j ih =>
    have hp := Nat.two_pow_pos j
    rw [BinaryPartsIter.frontLoop, dif_neg (by rw [Nat.pow_succ]; omega), and1, if_pos (by rw [Nat.pow_succ]; omega), shr1,
      show 2 ^ (j + 1) / 2 = 2 ^ j by rw [Nat.pow_succ]; omega] at run
    simp only [Deque.pushFront] at run
    rcases Runs.bind run with ⟨c1, m1, ⟨k1, k2⟩, h1, run⟩ | ⟨f, _, h1⟩
    case inr => obtain ⟨_, _, h2, _⟩ := h1.splitOff_inv hP h o; cases h2
    obtain ⟨_, _, h2, hr1, o1⟩ := h1.splitOff_inv hP h o; cases h2
    obtain ⟨i', ks, g1, g2, g3, g4⟩ := ih hr1 o1 run
    refine ⟨i', ks ++ [(k2, r.half s.flip)], ?_, ?_, g3, ?_⟩
    · have hc : (if j = 0 then max cap (dq.length + 1) else max (max cap (dq.length + 1)) ((k2 :: dq).length + j)) =
          if j + 1 = 0 then cap else max cap (dq.length + (j + 1)) := by
        rw [if_neg (Nat.succ_ne_zero j)]
        simp only [List.length_cons]; split <;> omega
      rw [g1, List.map_append, List.append_assoc, hc]; rfl
    · rw [List.map_append, g2]; rfl
    · rw [inB_append, List.append_assoc]; exact g4

theorem Runs.frontLoop_none (hP : PTame P) {s : Side} {b : Nat} (j : Nat) {x : Nat} {r : Rng} {Y : List (Nat × Seen)} {dq : List Nat} {cap : Nat}
    {res : Except Fault (Option Nat × Deque Nat)} (h : Conf.PReach P zst c) (o : Own c mine ((x, Seen.sh b r) :: Y))
    (run : Runs P W c mine (BinaryPartsIter.frontLoop (splitOffK s) (2 ^ (j + 1)) none ⟨x :: dq, cap⟩) c' mine' res) :
    ∃ i' ks, res = .ok (some i', ⟨ks.map Prod.fst ++ dq, if j = 0 then cap else max cap (dq.length + 1 + j)⟩) ∧
      ks.map Prod.snd = unroll (Rng.half · s) (Rng.half · s.flip) (j + 1) r ∧ Conf.PReach P zst c' ∧
      Own c' mine' ((i', Seen.sh b (leftmost (Rng.half · s) (j + 1) r)) :: (inB b ks ++ Y)) := by
  have hp := Nat.two_pow_pos j
  rw [BinaryPartsIter.frontLoop, dif_neg (by rw [Nat.pow_succ]; omega), and1, if_pos (by rw [Nat.pow_succ]; omega), shr1,
    show 2 ^ (j + 1) / 2 = 2 ^ j by rw [Nat.pow_succ]; omega] at run
  simp only at run
  rcases Runs.bind run with ⟨c1, m1, ⟨k1, k2⟩, h1, run⟩ | ⟨f, _, h1⟩
  case inr => obtain ⟨_, _, h2, _⟩ := h1.splitOff_inv hP h o; cases h2
  obtain ⟨_, _, h2, hr1, o1⟩ := h1.splitOff_inv hP h o; cases h2
  obtain ⟨i', ks, g1, g2, g3, g4⟩ := run.frontLoop_some hP j hr1 o1
  refine ⟨i', ks ++ [(k2, r.half s.flip)], ?_, ?_, g3, ?_⟩
  · rw [g1, List.map_append, List.append_assoc]; rfl
  · rw [List.map_append, g2]; rfl
  · rw [inB_append, List.append_assoc]; exact g4

/-- The iterator in this situation: the handles in its deque show the pieces that are to be there after `f` calls of `next` and `nb` calls of
`next_back`, and the thread has these handles and those in `Y`. -/
structure ItOwn (c : Conf α) (mine : List Nat) (b : Nat) (r : Rng) (m f nb cap : Nat) (it : BinaryPartsIter Nat) (Y : List (Nat × Seen)) : Prop where
  ex : ∃ ks : List (Nat × Rng), it = ⟨2 ^ m, f, nb, ⟨ks.map Prod.fst, cap⟩⟩ ∧ ks.map Prod.snd = pend Rng.left Rng.right m f nb r ∧
    Own c mine (inB b ks ++ Y)

theorem map_eq_cons' {δ ε : Type} {g : δ → ε} {l : List δ} {a : ε} {l' : List ε} (h : l.map g = a :: l') : ∃ x xs, l = x :: xs ∧ g x = a ∧ xs.map g = l' := by
  cases l with
  | nil => cases h
  | cons x xs => rw [List.map_cons] at h; injection h with h1 h2; exact ⟨x, xs, rfl, h1, h2⟩

theorem half_L : (fun r : Rng => r.half .L) = Rng.left := rfl
theorem half_R : (fun r : Rng => r.half .R) = Rng.right := rfl

/-- `next` of an `ArcSliceParts` with parts left. -/
theorem Runs.next_inv (hP : PTame P) (h : Conf.PReach P zst c) {b m f nb cap umax : Nat} {debug : Bool} {r : Rng} {it : BinaryPartsIter Nat} {Y : List (Nat × Seen)}
    (I : ItOwn c mine b r m f nb cap it Y) (hm : 2 ^ m ≤ umax) (hd : debug = true → capOf m ≤ cap) (hfb : f + nb < 2 ^ m)
    {res : Except Fault (Option Nat × BinaryPartsIter Nat)} (run : Runs P W c mine (nextPart umax debug .front it) c' mine' res) :
    ∃ k q it' cap', res = .ok (some k, it') ∧ (parts Rng.left Rng.right m r)[f]? = some q ∧ Conf.PReach P zst c' ∧
      ItOwn c' mine' b r m (f + 1) nb cap' it' ((k, Seen.sh b q) :: Y) ∧ (debug = true → capOf m ≤ cap') ∧ cap ≤ cap' := by
  obtain ⟨ks, rfl, hks, o⟩ := I.ex
  obtain ⟨j, x, rest, h1, h2, h3, h4⟩ := pend_front Rng.left Rng.right m f nb r hfb
  obtain ⟨n, j', g1, g2, g3⟩ := maxPow_exists (m := Prog α) (2 ^ m - f) (2 ^ m - f - nb) (by omega) (by omega)
  have hj := g3.unique h2
  subst hj
  have hlen := pend_length_le Rng.left Rng.right m (f + 1) nb r (by omega)
  rw [h3, List.length_append, unroll_length] at hlen
  rw [h1] at hks
  obtain ⟨⟨kx, x'⟩, kr, rfl, rfl, hkr⟩ := map_eq_cons' hks
  have hrl : kr.length = rest.length := by rw [← hkr, List.length_map]
  have o : Own c mine ((kx, Seen.sh b x') :: (inB b kr ++ Y)) := o
  change Runs P W c mine (BinaryPartsIter.next (splitOffK .L) umax debug _) c' mine' res at run
  unfold BinaryPartsIter.next at run
  rw [BinaryPartsIter.len_eq _ (by simp; omega)] at run
  simp only [pure_bind] at run
  rw [if_neg (by omega)] at run
  simp only [List.map_cons, List.length_cons, Nat.add_eq_zero_iff, Nat.succ_ne_self, and_false, Bool.and_eq_true,
    beq_iff_eq, if_false] at run
  rw [show subU (m := Prog α) (2 ^ m) f = pure (2 ^ m - f) by unfold subU; rw [if_pos (by omega)]] at run
  simp only [pure_bind, g1, g2] at run
  cases j' with
  | zero =>
    rw [Nat.pow_zero, BinaryPartsIter.frontLoop_one] at run
    simp [addU, show f + 1 ≤ umax by omega] at run
    cases run with
    | ret run =>
      refine ⟨kx, x', _, cap, rfl, by rw [h4]; rfl, run.others.reach h, ⟨kr, rfl, ?_, ?_⟩, hd, Nat.le_refl _⟩
      · rw [hkr, h3]; rfl
      · exact (o.env hP h run).perm List.perm_middle.symm
  | succ j' =>
    rcases Runs.bind run with ⟨c1, m1, ⟨i, d⟩, e1, run⟩ | ⟨e, _, e1⟩
    case inr => obtain ⟨_, _, e2, _⟩ := e1.frontLoop_none hP j' h o; cases e2
    obtain ⟨i', ks', e2, e3, hr1, o1⟩ := e1.frontLoop_none hP j' h o
    cases e2
    have hc : debug = true → (if j' = 0 then cap else max cap ((kr.map Prod.fst).length + 1 + j')) = cap := by
      intro h; have := hd h; split
      · rfl
      · simp only [List.length_map]; omega
    have hb : ¬ (debug = true ∧ (cap != (if j' = 0 then cap else max cap ((kr.map Prod.fst).length + 1 + j'))) = true) := by
      rintro ⟨h1, h2⟩
      rw [hc h1] at h2; simp at h2
    simp only [] at run
    rw [if_neg hb] at run
    simp [addU, show f + 1 ≤ umax by omega] at run
    cases run with
    | ret run2 =>
      refine ⟨i', leftmost Rng.left (j' + 1) x', _, _, rfl, h4, run2.others.reach hr1, ⟨ks' ++ kr, by rw [List.map_append], ?_, ?_⟩, ?_, ?_⟩
      · rw [List.map_append, e3, h3, hkr]; rfl
      · rw [inB_append]
        refine (o1.env hP hr1 run2).perm ?_
        rw [← List.append_assoc]
        exact List.perm_middle.symm
      · intro hdb; have := hd hdb; split <;> omega
      · split <;> omega

/-- `next_back` of an `ArcSliceParts` with parts left. -/
theorem Runs.nextBack_inv (hP : PTame P) (h : Conf.PReach P zst c) {b m f nb cap umax : Nat} {debug : Bool} {r : Rng} {it : BinaryPartsIter Nat} {Y : List (Nat × Seen)}
    (I : ItOwn c mine b r m f nb cap it Y) (hm : 2 ^ m ≤ umax) (hd : debug = true → capOf m ≤ cap) (hfb : f + nb < 2 ^ m)
    {res : Except Fault (Option Nat × BinaryPartsIter Nat)} (run : Runs P W c mine (nextPart umax debug .back it) c' mine' res) :
    ∃ k q it' cap', res = .ok (some k, it') ∧ (parts Rng.left Rng.right m r)[2 ^ m - 1 - nb]? = some q ∧ Conf.PReach P zst c' ∧
      ItOwn c' mine' b r m f (nb + 1) cap' it' ((k, Seen.sh b q) :: Y) ∧ (debug = true → capOf m ≤ cap') ∧ cap ≤ cap' := by
  obtain ⟨ks, rfl, hks, o⟩ := I.ex
  obtain ⟨j, x, rest, h1, h2, h3, h4⟩ := pend_front Rng.right Rng.left m nb f r (by omega)
  obtain ⟨n, j', g1, g2, g3⟩ := maxPow_exists (m := Prog α) (2 ^ m - nb) (2 ^ m - nb - f) (by omega) (by omega)
  have hj := g3.unique h2
  subst hj
  have hlen := pend_length_le Rng.right Rng.left m (nb + 1) f r (by omega)
  rw [h3, List.length_append, unroll_length] at hlen
  have h4' : (parts Rng.left Rng.right m r)[2 ^ m - 1 - nb]? = some (leftmost Rng.right j' x) := by
    rw [parts_mirror, List.getElem?_reverse (by rw [parts_length]; omega), parts_length, ← h4]
    congr 1; omega
  obtain ⟨kx, rfl⟩ : ∃ ks', ks = ks'.reverse := ⟨ks.reverse, by simp⟩
  rw [pend_mirror, h1, List.map_reverse, List.reverse_inj] at hks
  obtain ⟨⟨kx, x'⟩, kr, rfl, rfl, hkr⟩ := map_eq_cons' hks
  have hrl : kr.length = rest.length := by rw [← hkr, List.length_map]
  have o : Own c mine ((kx, Seen.sh b x') :: (inB b kr.reverse ++ Y)) := by
    refine o.perm ?_
    rw [List.reverse_cons, inB_append, List.append_assoc]
    exact List.perm_middle
  change Runs P W c mine (BinaryPartsIter.nextBack (splitOffK .R) umax debug _) c' mine' res at run
  unfold BinaryPartsIter.nextBack at run
  rw [BinaryPartsIter.len_eq _ (by simp; omega)] at run
  simp only [pure_bind] at run
  rw [if_neg (by omega)] at run
  rw [List.map_reverse] at run
  simp only [List.map_cons, List.length_reverse, List.length_cons, Nat.add_eq_zero_iff, Nat.succ_ne_self, and_false, Bool.and_eq_true,
    beq_iff_eq, if_false] at run
  rw [show subU (m := Prog α) (2 ^ m) nb = pure (2 ^ m - nb) by unfold subU; rw [if_pos (by omega)]] at run
  rw [show 2 ^ m - f - nb = 2 ^ m - nb - f by omega] at run
  simp only [pure_bind, g1, g2, BinaryPartsIter.backLoop_mirror] at run
  cases j' with
  | zero =>
    rw [Nat.pow_zero, BinaryPartsIter.frontLoop_one] at run
    simp [addU, show nb + 1 ≤ umax by omega] at run
    cases run with
    | ret run2 =>
      refine ⟨kx, x', _, cap, rfl, by rw [h4']; rfl, run2.others.reach h, ⟨kr.reverse, by rw [List.map_reverse], ?_, ?_⟩, hd, Nat.le_refl _⟩
      · rw [List.map_reverse, hkr, pend_mirror, h3]; rfl
      · exact (o.env hP h run2).perm List.perm_middle.symm
  | succ j' =>
    rw [bind_map_left] at run
    rcases Runs.bind run with ⟨c1, m1, ⟨i, d⟩, e1, run⟩ | ⟨e, _, e1⟩
    case inr => obtain ⟨_, _, e2, _⟩ := e1.frontLoop_none hP j' h o; cases e2
    obtain ⟨i', ks', e2, e3, hr1, o1⟩ := e1.frontLoop_none hP j' h o
    cases e2
    have hc : debug = true → (if j' = 0 then cap else max cap ((kr.map Prod.fst).length + 1 + j')) = cap := by
      intro h; have := hd h; split
      · rfl
      · simp only [List.length_map]; omega
    have hb : ¬ (debug = true ∧ (cap != (if j' = 0 then cap else max cap ((kr.map Prod.fst).length + 1 + j'))) = true) := by
      rintro ⟨h1, h2⟩
      rw [hc h1] at h2; simp at h2
    simp only [] at run
    rw [if_neg hb] at run
    simp [addU, show nb + 1 ≤ umax by omega] at run
    cases run with
    | ret run2 =>
      refine ⟨i', leftmost Rng.right (j' + 1) x', _, _, rfl, h4', run2.others.reach hr1,
        ⟨(ks' ++ kr).reverse, by rw [List.map_reverse, List.map_append, List.reverse_append], ?_, ?_⟩, ?_, ?_⟩
      · rw [List.map_reverse, List.map_append, e3, hkr, pend_mirror, h3]; rfl
      · rw [List.reverse_append, inB_append]
        refine (o1.env hP hr1 run2).perm ?_
        refine List.Perm.trans (.cons _ ?_) List.perm_middle.symm
        have : (inB b ks').Perm (inB b ks'.reverse) := (List.reverse_perm ks').symm.map _
        refine (this.append_right _).trans ?_
        rw [← List.append_assoc]
        exact List.perm_append_comm.append_right _
      · intro hdb; have := hd hdb; split <;> omega
      · split <;> omega

/-- `next` and `next_back` when no parts are left. -/
theorem Runs.next_done (hP : PTame P) (h : Conf.PReach P zst c) {b m f nb cap umax : Nat} {debug : Bool} {r : Rng} {it : BinaryPartsIter Nat} {Y : List (Nat × Seen)}
    (I : ItOwn c mine b r m f nb cap it Y) (hfb : f + nb = 2 ^ m) {e : End}
    {res : Except Fault (Option Nat × BinaryPartsIter Nat)} (run : Runs P W c mine (nextPart umax debug e it) c' mine' res) :
    res = .ok (none, it) ∧ Conf.PReach P zst c' ∧ ItOwn c' mine' b r m f nb cap it Y := by
  obtain ⟨ks, rfl, hks, o⟩ := I.ex
  have hn : nextPart (α := α) umax debug e ⟨2 ^ m, f, nb, ⟨ks.map Prod.fst, cap⟩⟩ = .ret (none, ⟨2 ^ m, f, nb, ⟨ks.map Prod.fst, cap⟩⟩) := by
    cases e
    · exact (BinaryPartsIter.next_done (m := Prog α) umax debug _ hfb).1
    · exact (BinaryPartsIter.next_done (m := Prog α) umax debug _ hfb).2
  rw [hn] at run
  cases run with
  | ret run => exact ⟨rfl, run.others.reach h, ⟨ks, rfl, hks, o.env hP h run⟩⟩

/-- `clone` of an `ArcSliceParts`. -/
theorem Runs.cloneAll_inv (hP : PTame P) : ∀ {ks : List (Nat × Seen)} {c c' : Conf α} {mine mine' : List Nat} {Y : List (Nat × Seen)} {res : Except Fault (List Nat)},
    Conf.PReach P zst c → Own c mine Y → (∀ x ∈ ks, x ∈ Y) → Runs P W c mine (cloneAll (ks.map Prod.fst)) c' mine' res →
    ∃ ks' : List (Nat × Seen), res = .ok (ks'.map Prod.fst) ∧ ks'.map Prod.snd = ks.map Prod.snd ∧ Conf.PReach P zst c' ∧ Own c' mine' (ks' ++ Y) := by
  intro ks
  induction ks with
  | nil =>
    intro c c' mine mine' Y res h o _ run
    cases run with
    | ret run => exact ⟨[], rfl, rfl, run.others.reach h, o.env hP h run⟩
  | cons x ks ih =>
    intro c c' mine mine' Y res h o hs run
    obtain ⟨k, v⟩ := x
    rcases Runs.bind run with ⟨c1, m1, k1, h1, run⟩ | ⟨f, _, h1⟩
    case inr => obtain ⟨_, h2, _⟩ := h1.clone_inv hP h o (hs _ List.mem_cons_self); cases h2
    obtain ⟨_, h2, hr1, o1⟩ := h1.clone_inv hP h o (hs _ List.mem_cons_self); cases h2
    rcases Runs.bind run with ⟨c2, m2, l, h1, run⟩ | ⟨f, _, h1⟩
    case inr => obtain ⟨_, h2, _⟩ := ih hr1 o1 (fun x hx => List.mem_cons_of_mem _ (hs x (List.mem_cons_of_mem _ hx))) h1; cases h2
    obtain ⟨ks', h2, h3, hr2, o2⟩ := ih hr1 o1 (fun x hx => List.mem_cons_of_mem _ (hs x (List.mem_cons_of_mem _ hx))) h1
    cases h2
    cases run with
    | ret run2 =>
      refine ⟨(k1, v) :: ks', rfl, by rw [List.map_cons, List.map_cons, h3], run2.others.reach hr2, ?_⟩
      exact (o2.env hP hr2 run2).perm List.perm_middle

end Verif.Arc
