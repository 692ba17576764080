import Verif.Proofs.BinParts
/-! Walks: windows of a list, and `BinaryPartsIter` along a walk. -/

namespace Verif
open Spec

/-- What is left of `xs` after `f` items from the front and `b` from the back. -/
def win {α : Type} (xs : List α) (f b : Nat) : List α := (xs.drop f).take (xs.length - f - b)

section win
variable {α : Type} (xs : List α)

theorem win_length (f b : Nat) : (win xs f b).length = xs.length - f - b := by
  simp [win]

theorem win_zero : win xs 0 0 = xs := by simp [win]

theorem win_head {f b : Nat} (h : f + b < xs.length) : (win xs f b).head? = xs[f]? := by
  rw [List.head?_eq_getElem?, win, List.getElem?_take_of_lt (by omega), List.getElem?_drop]; rfl

theorem win_tail {f b : Nat} : (win xs f b).tail = win xs (f + 1) b := by
  rw [win, win, ← List.drop_one, List.drop_take, List.drop_drop]; congr 1; omega

theorem win_last {f b : Nat} (h : f + b < xs.length) :
    (win xs f b).getLast? = xs[xs.length - 1 - b]? := by
  rw [List.getLast?_eq_getElem?, win_length, win, List.getElem?_take_of_lt (by omega), List.getElem?_drop]
  congr 1; omega

theorem win_dropLast {f b : Nat} : (win xs f b).dropLast = win xs f (b + 1) := by
  rw [List.dropLast_eq_take, win_length, win, win, List.take_take]
  congr 1; omega

theorem win_done {f b : Nat} (h : xs.length ≤ f + b) : win xs f b = [] := by
  apply List.eq_nil_of_length_eq_zero; rw [win_length]; omega
end win

/-- How many calls of each kind a walk makes. -/
def countFront (w : List End) : Nat := w.count .front
def countBack (w : List End) : Nat := w.count .back

theorem count_len (w : List End) : countFront w + countBack w = w.length := by
  induction w with
  | nil => rfl
  | cons e w ih => cases e <;> simp_all [countFront, countBack] <;> omega

/-- How many items a walk takes from the front and from the back of a list of length `n`
of which `f` and `b` are already gone. -/
def cnts : List End → Nat → Nat → Nat → Nat × Nat
  | [], _, f, b => (f, b)
  | e :: w, n, f, b =>
    if f + b < n then
      match e with
      | .front => cnts w n (f + 1) b
      | .back => cnts w n f (b + 1)
    else cnts w n f b

theorem cnts_le (w : List End) (n f b : Nat) (h : f + b ≤ n) : (cnts w n f b).1 + (cnts w n f b).2 ≤ n := by
  induction w generalizing f b with
  | nil => exact h
  | cons e w ih =>
    simp only [cnts]
    split
    · cases e
      · exact ih _ _ (by omega)
      · exact ih _ _ (by omega)
    · exact ih _ _ h

theorem cnts_eq (w : List End) (n f b : Nat) (h : w.length + f + b ≤ n) :
    cnts w n f b = (f + countFront w, b + countBack w) := by
  induction w generalizing f b with
  | nil => rfl
  | cons e w ih =>
    simp only [List.length_cons] at h
    simp only [cnts]
    rw [if_pos (by omega)]
    cases e <;> (simp only [countFront, countBack, List.count_cons]; rw [ih _ _ (by omega)]; simp [countFront, countBack]; omega)

theorem cnts_full (w : List End) (n f b : Nat) (h : n ≤ w.length + f + b) (hfb : f + b ≤ n) :
    (cnts w n f b).1 + (cnts w n f b).2 = n := by
  induction w generalizing f b with
  | nil => simp at h; simp [cnts]; omega
  | cons e w ih =>
    simp only [List.length_cons] at h
    simp only [cnts]
    split
    · cases e
      · exact ih _ _ (by omega) (by omega)
      · exact ih _ _ (by omega) (by omega)
    · exact ih _ _ (by omega) hfb

theorem deqRun_cnts {α : Type} (w : List End) (xs : List α) (f b : Nat) :
    (deqRun w (win xs f b)).2 = win xs (cnts w xs.length f b).1 (cnts w xs.length f b).2 := by
  induction w generalizing f b with
  | nil => rfl
  | cons e w ih =>
    simp only [cnts]
    split
    · cases e
      · simp only [deqRun, deqStep, win_tail]; exact ih _ _
      · simp only [deqRun, deqStep, win_dropLast]; exact ih _ _
    · rename_i h
      have hw : win xs f b = [] := win_done xs (by omega)
      rw [← ih f b]
      cases e <;> simp [deqRun, deqStep, hw]

theorem deqRun_map {α β : Type} (g : α → β) (w : List End) (xs : List α) :
    deqRun w (xs.map g) = ((deqRun w xs).1.map (Option.map g), (deqRun w xs).2.map g) := by
  induction w generalizing xs with
  | nil => rfl
  | cons e w ih =>
    cases e
    · simp only [deqRun, deqStep, List.head?_map, ← List.map_tail, ih]; rfl
    · simp only [deqRun, deqStep, List.getLast?_map, ← List.map_dropLast, ih]; rfl

namespace BinaryPartsIter
variable {S : Type}

/-- One call on a shared parts iterator. -/
def step (sl sr : S → Except Fault (S × S)) (umax : Nat) (debug : Bool) :
    End → BinaryPartsIter S → Except Fault (Option S × BinaryPartsIter S)
  | .front => next sl umax debug
  | .back => nextBack sr umax debug

theorem walk_state {Good : S → Prop} {l r : S → S} {sl sr : S → Except Fault (S × S)}
    (hs : SplitOK Good l r sl sr) (k : Nat) (s : S) (hg : Good s) (umax : Nat) (debug : Bool)
    (hk : 2 ^ k ≤ umax) (w : List End) (f b cap : Nat) (hd : debug = true → capOf k ≤ cap)
    (hfb : f + b ≤ 2 ^ k) :
    ∃ cap', runWalk (step sl sr umax debug) w (state l r k f b cap s) =
        .ok ((deqRun w (win (parts l r k s) f b)).1,
          state l r k (cnts w (2 ^ k) f b).1 (cnts w (2 ^ k) f b).2 cap' s) ∧
      cap ≤ cap' ∧ (capOf k ≤ cap → cap' = cap) := by
  induction w generalizing f b cap with
  | nil => exact ⟨cap, rfl, Nat.le_refl _, fun _ => rfl⟩
  | cons e w ih =>
    by_cases hlt : f + b < 2 ^ k
    · have hwl : f + b < (parts l r k s).length := by rw [parts_length]; exact hlt
      cases e with
      | front =>
        obtain ⟨c1, h1, h2, h3⟩ := next_eq hs k f b cap s hg umax debug hk hd hlt
        obtain ⟨c2, g1, g5, g6⟩ := ih (f + 1) b c1 (fun h => Nat.le_trans (hd h) h2) (by omega)
        refine ⟨c2, ?_, by omega, ?_⟩
        · simp only [runWalk, step, h1, pure, Except.pure, deqRun, deqStep, win_tail, cnts, if_pos hlt]
          simp only [show runWalk (step sl sr umax debug) w _ = _ from g1, win_head _ hwl]
        · intro h; rw [g6 (by rw [h3 h]; exact h), h3 h]
      | back =>
        obtain ⟨c1, h1, h2, h3⟩ := nextBack_eq hs k f b cap s hg umax debug hk hd hlt
        obtain ⟨c2, g1, g5, g6⟩ := ih f (b + 1) c1 (fun h => Nat.le_trans (hd h) h2) (by omega)
        refine ⟨c2, ?_, by omega, ?_⟩
        · simp only [runWalk, step, h1, pure, Except.pure, deqRun, deqStep, win_dropLast, cnts, if_pos hlt]
          simp only [show runWalk (step sl sr umax debug) w _ = _ from g1, win_last _ hwl, parts_length]
        · intro h; rw [g6 (by rw [h3 h]; exact h), h3 h]
    · have hd1 := next_done (sp := sl) umax debug (state l r k f b cap s) (by simp [state]; omega)
      have hd2 := next_done (sp := sr) umax debug (state l r k f b cap s) (by simp [state]; omega)
      have hw : win (parts l r k s) f b = [] := win_done _ (by rw [parts_length]; omega)
      obtain ⟨c2, g1, g5, g6⟩ := ih f b cap hd hfb
      rw [hw] at g1
      refine ⟨c2, ?_, g5, g6⟩
      cases e
      · simp only [runWalk, step, hd1.1, pure, Except.pure, hw, deqRun, deqStep, cnts, if_neg hlt]
        simp only [g1, List.tail_nil, List.head?_nil]
      · simp only [runWalk, step, hd2.2, pure, Except.pure, hw, deqRun, deqStep, cnts, if_neg hlt]
        simp only [g1, List.dropLast_nil, List.getLast?_nil]

end BinaryPartsIter
end Verif

namespace Verif
open Spec

theorem mem_deqRun {α : Type} (w : List End) (xs : List α) {x : α} (h : some x ∈ (deqRun w xs).1) : x ∈ xs := by
  induction w generalizing xs with
  | nil => simp [deqRun] at h
  | cons e w ih =>
    cases e with
    | front =>
      simp only [deqRun, deqStep, List.mem_cons] at h
      rcases h with h | h
      · exact List.mem_of_mem_head? h.symm
      · exact List.mem_of_mem_tail (ih _ h)
    | back =>
      simp only [deqRun, deqStep, List.mem_cons] at h
      rcases h with h | h
      · exact List.mem_of_getLast? h.symm
      · exact (List.dropLast_sublist _).subset (ih _ h)

/-- The items handed out by a call. -/
def outItems {α : Type} : IterOut α → List α
  | .item (some x) => [x]
  | _ => []

theorem flatten_set {α : Type} (pool : List (List α)) (i : Nat) (xs ys : List α) (h : pool[i]? = some xs)
    (zs : List α) (hp : (zs ++ ys).Perm xs) : (zs ++ (pool.set i ys).flatten).Perm pool.flatten := by
  induction pool generalizing i with
  | nil => simp at h
  | cons p pool ih =>
    cases i with
    | zero =>
      simp at h; subst h
      simp only [List.set_cons_zero, List.flatten_cons, ← List.append_assoc]
      exact hp.append_right _
    | succ i =>
      simp at h
      simp only [List.set_cons_succ, List.flatten_cons]
      have := ih i h
      refine List.Perm.trans ?_ (this.append_left p)
      rw [← List.append_assoc, ← List.append_assoc]
      exact List.perm_append_comm.append_right _

theorem iterStep_conserves' {α : Type} {pool pool' : List (List α)} {op : IterOp} {o : IterOut α}
    (h : iterStep pool op = some (o, pool')) : (outItems o ++ pool'.flatten).Perm pool.flatten := by
  cases op with
  | next i =>
    simp only [iterStep, Option.map_eq_some_iff] at h
    obtain ⟨xs, h1, h2⟩ := h
    cases h2
    apply flatten_set _ _ _ _ h1
    cases xs <;> simp [outItems]
  | nextBack i =>
    simp only [iterStep, Option.map_eq_some_iff] at h
    obtain ⟨xs, h1, h2⟩ := h
    cases h2
    apply flatten_set _ _ _ _ h1
    rcases List.eq_nil_or_concat xs with rfl | ⟨ys, y, rfl⟩
    · simp [outItems]
    · simp only [List.concat_eq_append, List.getLast?_concat, outItems, List.dropLast_concat]
      exact List.perm_append_comm
  | splitOffFrom i a =>
    simp only [iterStep, Option.map_eq_some_iff] at h
    obtain ⟨xs, h1, h2⟩ := h
    split at h2
    · cases h2
      simp only [outItems, List.nil_append, List.flatten_append, List.flatten_cons, List.flatten_nil, List.append_nil]
      exact List.perm_append_comm.trans
        (flatten_set _ _ _ _ h1 _ (List.perm_append_comm.trans (by rw [List.take_append_drop])))
    · cases h2; simp [outItems]
  | splitOffTo i a =>
    simp only [iterStep, Option.map_eq_some_iff] at h
    obtain ⟨xs, h1, h2⟩ := h
    split at h2
    · cases h2
      simp only [outItems, List.nil_append, List.flatten_append, List.flatten_cons, List.flatten_nil, List.append_nil]
      exact List.perm_append_comm.trans (flatten_set _ _ _ _ h1 _ (by rw [List.take_append_drop]))
    · cases h2; simp [outItems]

end Verif
