import Verif.Arc.Proofs.Tok
/-!
# The books of the guards, and the gates

Nothing here needs the calls to be well behaved otherwise: it holds for every history.
-/

namespace Verif.Arc
open Verif.Spec (Side Slot Family Rng End)
open Verif.Rc
variable {α : Type}

/-- The program points of a call between closing a clone gate and opening it again. -/
def cL : Pc α → List Nat
  | .gm3 _ g | .gm4 _ g | .gmOpenC _ g _ | .im1 _ g | .im2 _ g | .imOpen _ g | .imFg _ g _ _ | .imGate g _ _ => [g]
  | _ => []

/-- The program points of a call between closing a downgrade gate and opening it again. -/
def dL : Pc α → List Nat
  | .gm1 _ g | .gm2 _ g | .gm3 _ g | .gm4 _ g | .gmOpenC _ g _ | .gmOpenD _ g _ => [g]
  | _ => []

theorem cL_sub (pc : Pc α) {g : Nat} (h : g ∈ cL pc) : g ∈ aGd (pcT pc) := by
  cases pc <;> simp_all [cL, pcT]

theorem dL_sub (pc : Pc α) {g : Nat} (h : g ∈ dL pc) : g ∈ aGd (pcT pc) := by
  cases pc <;> simp_all [dL, pcT]

/-- The number of guards that have `g` as parent. -/
def prefs (f : Nat → Option GuardV) (n g : Nat) : Nat :=
  (List.range n).countP fun x => (f x).any (·.parent == some g)

theorem prefs_upd {f : Nat → Option GuardV} {n x : Nat} (hx : x < n) (o : Option GuardV) (g : Nat) :
    prefs (upd f x o) n g + (if (f x).any (·.parent == some g) then 1 else 0) =
      prefs f n g + (if o.any (·.parent == some g) then 1 else 0) := by
  have key : ∀ l : List Nat, l.Nodup →
      l.countP (fun y => (upd f x o y).any (·.parent == some g)) + (if x ∈ l ∧ (f x).any (·.parent == some g) = true then 1 else 0) =
      l.countP (fun y => (f y).any (·.parent == some g)) + (if x ∈ l ∧ o.any (·.parent == some g) = true then 1 else 0) := by
    intro l
    induction l with
    | nil => intro _; rfl
    | cons y l ih =>
      intro hn
      have ih := ih (List.nodup_cons.1 hn).2
      have hy := (List.nodup_cons.1 hn).1
      by_cases e : y = x
      · subst e
        simp only [hy, false_and, if_false, List.countP_cons, upd_same, List.mem_cons, true_or, true_and] at ih ⊢
        omega
      · simp only [List.countP_cons, upd_ne _ _ e, List.mem_cons, show ¬ x = y from fun h => e h.symm, false_or] at ih ⊢
        omega
  have := key (List.range n) List.nodup_range
  simpa only [prefs, List.mem_range, hx, true_and] using this

theorem prefs_succ (f : Nat → Option GuardV) (n g : Nat) :
    prefs f (n + 1) g = prefs f n g + (if (f n).any (·.parent == some g) then 1 else 0) := by
  simp only [prefs, List.range_succ, List.countP_append, List.countP_cons, List.countP_nil, Nat.zero_add]

theorem prefs_congr {f f' : Nat → Option GuardV} {n g : Nat} (h : ∀ x, x < n → f' x = f x) : prefs f' n g = prefs f n g := by
  simp only [prefs]
  apply List.countP_congr
  intro x hx
  rw [h x (List.mem_range.1 hx)]

theorem prefs_pos {f : Nat → Option GuardV} {n g x : Nat} {v : GuardV} (hx : x < n) (hv : f x = some v) (hp : v.parent = some g) :
    0 < prefs f n g := by
  simp only [prefs, List.countP_pos_iff]
  exact ⟨x, List.mem_range.2 hx, by simp [hv, hp]⟩

/-- `D`: guards held, `W`: weak guards held, `C`, `E`: closed gates. -/
structure GI (a : Arena α) (D W C E : List Nat) : Prop where
  strong : ∀ g, a.gS g = D.count g + prefs a.guard a.ng g
  live : ∀ g, 0 < a.gS g ↔ ∃ v, a.guard g = some v
  fresh : ∀ g, a.ng ≤ g → a.guard g = none
  weak : ∀ g, a.gW g = W.count g + if g < a.ng then 1 else 0
  wlt : ∀ g ∈ W, g < a.ng
  cg : ∀ g, C.count g = if (a.guard g).any (·.cGate) then 1 else 0
  dg : ∀ g, E.count g = if (a.guard g).any (·.dGate) then 1 else 0

theorem GI.congr {a a' : Arena α} {D W C E D' W' C' E' : List Nat} (h : GI a D W C E) (e1 : a'.ng = a.ng) (e2 : a'.guard = a.guard)
    (e3 : a'.gS = a.gS) (e4 : a'.gW = a.gW) (hD : ∀ g, D'.count g = D.count g) (hW : ∀ g, W'.count g = W.count g)
    (hC : ∀ g, C'.count g = C.count g) (hE : ∀ g, E'.count g = E.count g) : GI a' D' W' C' E' where
  strong g := by rw [e1, e2, e3, hD]; exact h.strong g
  live g := by rw [e2, e3]; exact h.live g
  fresh g := by rw [e1, e2]; exact h.fresh g
  weak g := by rw [e1, e4, hW]; exact h.weak g
  wlt g hg := by
    rw [e1]; refine h.wlt g (List.count_pos_iff.1 ?_)
    rw [← hW]; exact List.count_pos_iff.2 hg
  cg g := by rw [e2, hC]; exact h.cg g
  dg g := by rw [e2, hE]; exact h.dg g

section
variable {a : Arena α} {D W C E : List Nat}

theorem GI.held (h : GI a D W C E) {g : Nat} (hg : g ∈ D) : ∃ v, a.guard g = some v := by
  refine (h.live g).1 ?_
  have := List.count_pos_iff.2 hg
  have := h.strong g; omega

theorem GI.lt (h : GI a D W C E) {g : Nat} {v : GuardV} (hg : a.guard g = some v) : g < a.ng := by
  refine Decidable.byContradiction fun hn => ?_
  rw [h.fresh g (by omega)] at hg; cases hg

/-- `Arc<DataGuard>::clone`, or a successful upgrade. -/
theorem GI.inc (h : GI a D W C E) {g : Nat} (hg : a.gS g ≠ 0) : GI { a with gS := upd a.gS g (a.gS g + 1) } (g :: D) W C E where
  strong g' := by
    have := h.strong g'
    simp only [upd, List.count_cons]
    by_cases e : g' = g
    · subst e; simp only [if_true, beq_self_eq_true]; omega
    · simp only [e, show ¬ (g == g') = true from fun h => e (beq_iff_eq.1 h).symm, if_false, Bool.false_eq_true]; omega
  live g' := by
    simp only [upd]
    by_cases e : g' = g
    · subst e; simp only [if_true]
      exact ⟨fun _ => (h.live g').1 (by omega), fun _ => by omega⟩
    · simp only [e, if_false]; exact h.live g'
  fresh := h.fresh
  weak := h.weak
  wlt := h.wlt
  cg := h.cg
  dg := h.dg

/-- `Arc<DataGuard>::drop`. -/
theorem GI.drop (h : GI a (g :: D) W C E) (hC : ∀ x ∈ C, x ∈ D) (hE : ∀ x ∈ E, x ∈ D) :
    ∃ a' ts, a.dropG g = .ok (a', ts) ∧ GI a' (aGd (ts.flatMap ataskT) ++ D) W C E ∧
      (∀ x, x ≠ g → a'.guard x = a.guard x ∧ a'.gS x = a.gS x) ∧
      ((a.gS g = 1 ∧ ∃ v, a.guard g = some v ∧ ts = v.parent.toList.map .guard ∧ a'.guard g = none ∧ a'.gS g = 0) ∨
        (a.gS g ≠ 1 ∧ ts = [] ∧ a'.guard g = a.guard g ∧ a'.gS g = a.gS g - 1)) := by
  obtain ⟨v, hv⟩ := h.held (List.mem_cons_self ..)
  have hpos := (h.live g).2 ⟨v, hv⟩
  have hs := h.strong g
  simp only [List.count_cons, beq_self_eq_true, if_true] at hs
  by_cases h1 : a.gS g = 1
  · refine ⟨{ a with gS := upd a.gS g 0, guard := upd a.guard g none }, v.parent.toList.map .guard, ?_, ?_, ?_, ?_⟩
    · simp only [Arena.dropG]; rw [if_neg (by omega), if_neg (by omega), hv]
    · have hlt := h.lt hv
      have eD : ∀ x, (aGd ((v.parent.toList.map ATask.guard).flatMap ataskT)).count x =
          if (some v).any (·.parent == some x) then 1 else 0 := by
        intro x
        cases hp : v.parent with
        | none => simp [hp]
        | some p =>
          simp only [Option.toList, List.map_cons, List.map_nil, List.flatMap_cons, List.flatMap_nil, List.append_nil, ataskT,
            aGd_cons, AT.gds, aGd_nil, List.count_cons, List.count_nil, Option.any_some, hp, Nat.zero_add]
          rfl
      have hno : ∀ x ∈ C ++ E, x ≠ g := by
        rintro x hx rfl
        have : x ∈ D := (List.mem_append.1 hx).elim (hC x) (hE x)
        have := List.count_pos_iff.2 this
        omega
      have hgate : ∀ (p : GuardV → Bool) (L : List Nat), (∀ x ∈ L, x ≠ g) →
          (∀ x, L.count x = if (a.guard x).any p then 1 else 0) →
          ∀ x, L.count x = if (upd a.guard g none x).any p then 1 else 0 := by
        intro p L hL hx x
        by_cases e : x = g
        · subst e
          rw [upd_same]
          simp only [Option.any_none, Bool.false_eq_true, if_false]
          exact List.count_eq_zero.2 fun hm => hL x hm rfl
        · rw [upd_ne _ _ e]; exact hx x
      exact {
        strong := fun x => by
          have hu := prefs_upd (f := a.guard) hlt none x
          rw [hv] at hu
          have e := eD x
          have hs := h.strong x
          simp only [List.count_cons] at hs
          simp only [List.count_append, e, Option.any_none, Bool.false_eq_true, if_false, Nat.add_zero] at hu ⊢
          by_cases ex : x = g
          · subst ex
            simp only [upd_same, beq_self_eq_true, if_true] at hs ⊢
            omega
          · rw [upd_ne _ _ ex]
            rw [if_neg (fun h => ex (beq_iff_eq.1 h).symm)] at hs
            omega
        live := fun x => by
          by_cases ex : x = g
          · subst ex; simp only [upd_same]
            exact ⟨fun h => absurd h (by omega), fun ⟨_, h⟩ => by cases h⟩
          · simp only [upd_ne _ _ ex]; exact h.live x
        fresh := fun x hx => by
          simp only [upd]; split
          · rfl
          · exact h.fresh x hx
        weak := h.weak
        wlt := h.wlt
        cg := hgate _ _ (fun x hx => hno x (List.mem_append_left _ hx)) h.cg
        dg := hgate _ _ (fun x hx => hno x (List.mem_append_right _ hx)) h.dg }
    · intro x hx; exact ⟨upd_ne _ _ hx, upd_ne _ _ hx⟩
    · exact .inl ⟨h1, v, hv, rfl, upd_same _ _ _, upd_same _ _ _⟩
  · refine ⟨{ a with gS := upd a.gS g (a.gS g - 1) }, [], ?_, ?_, ?_, ?_⟩
    · simp only [Arena.dropG]; rw [if_neg (by omega), if_pos h1]
    · exact {
        strong := fun x => by
          have hs := h.strong x
          simp only [List.count_cons] at hs
          simp only [List.flatMap_nil, aGd_nil, List.nil_append]
          by_cases ex : x = g
          · subst ex
            simp only [upd_same, beq_self_eq_true, if_true] at hs ⊢
            omega
          · rw [upd_ne _ _ ex]
            rw [if_neg (fun h => ex (beq_iff_eq.1 h).symm)] at hs
            omega
        live := fun x => by
          by_cases ex : x = g
          · subst ex; simp only [upd_same]
            exact ⟨fun _ => ⟨v, hv⟩, fun _ => by omega⟩
          · simp only [upd_ne _ _ ex]; exact h.live x
        fresh := h.fresh
        weak := h.weak
        wlt := h.wlt
        cg := h.cg
        dg := h.dg }
    · intro x hx; exact ⟨rfl, upd_ne _ _ hx⟩
    · exact .inr ⟨h1, rfl, rfl, upd_same _ _ _⟩

/-- A gate is closed or opened. -/
theorem GI.gate (h : GI a D W C E) {g : Nat} {v v' : GuardV} {C' E' : List Nat} (hg : a.guard g = some v) (hp : v'.parent = v.parent)
    (hC : ∀ x, x ≠ g → C'.count x = C.count x) (hC' : C'.count g = if v'.cGate then 1 else 0)
    (hE : ∀ x, x ≠ g → E'.count x = E.count x) (hE' : E'.count g = if v'.dGate then 1 else 0) : GI (a.setG g v') D W C' E' where
  strong x := by
    have := prefs_upd (f := a.guard) (h.lt hg) (some v') x
    rw [hg] at this
    simp only [Option.any_some, hp] at this
    simp only [Arena.setG]
    have := h.strong x; omega
  live x := by
    simp only [Arena.setG]
    by_cases ex : x = g
    · subst ex; simp only [upd_same]
      exact ⟨fun _ => ⟨v', rfl⟩, fun _ => (h.live x).2 ⟨v, hg⟩⟩
    · simp only [upd_ne _ _ ex]; exact h.live x
  fresh x hx := by
    have := h.lt hg
    have hx' : a.ng ≤ x := hx
    simp only [Arena.setG]; rw [upd_ne _ _ (by omega)]; exact h.fresh x hx
  weak := h.weak
  wlt := h.wlt
  cg x := by
    show C'.count x = if (upd a.guard g (some v') x).any _ then 1 else 0
    by_cases ex : x = g
    · subst ex; rw [upd_same, hC']; rfl
    · rw [upd_ne _ _ ex, hC x ex]; exact h.cg x
  dg x := by
    show E'.count x = if (upd a.guard g (some v') x).any _ then 1 else 0
    by_cases ex : x = g
    · subst ex; rw [upd_same, hE']; rfl
    · rw [upd_ne _ _ ex, hE x ex]; exact h.dg x

/-- A new guard. -/
theorem GI.new (h : GI a (og.toList ++ D) W C E) (x : Nat) :
    GI { a with ng := a.ng + 1, guard := upd a.guard a.ng (some ⟨og, false, false⟩), gS := upd a.gS a.ng 1,
                gW := upd a.gW a.ng 1, gOf := upd a.gOf a.ng x } (a.ng :: D) W C E := by
  have hf := h.fresh a.ng (Nat.le_refl _)
  have h0 : a.gS a.ng = 0 := by
    refine Decidable.byContradiction fun hn => ?_
    obtain ⟨v, hv⟩ := (h.live a.ng).1 (by omega)
    rw [hf] at hv; cases hv
  have hs0 := h.strong a.ng
  rw [h0, List.count_append] at hs0
  have hold : ∀ y, y < a.ng → upd a.guard a.ng (some ⟨og, false, false⟩) y = a.guard y := fun y hy => upd_ne _ _ (by omega)
  have hany : ∀ y p, p (⟨og, false, false⟩ : GuardV) = false →
      (upd a.guard a.ng (some ⟨og, false, false⟩) y).any p = (a.guard y).any p := by
    intro y p hp
    by_cases e : y = a.ng
    · subst e; rw [upd_same, hf]; simp [hp]
    · rw [upd_ne _ _ e]
  have hpar : ∀ y, (og.toList).count y = if (some (⟨og, false, false⟩ : GuardV)).any (·.parent == some y) then 1 else 0 := by
    intro y
    cases og with
    | none => simp
    | some p => simp only [Option.toList, List.count_cons, List.count_nil, Option.any_some, Nat.zero_add]; rfl
  exact {
    strong := fun y => by
      have hs := h.strong y
      rw [List.count_append, hpar y] at hs
      show upd a.gS a.ng 1 y = _ + prefs (upd a.guard a.ng (some ⟨og, false, false⟩)) (a.ng + 1) y
      rw [prefs_succ, prefs_congr hold, upd_same, List.count_cons]
      by_cases e : y = a.ng
      · subst e
        rw [upd_same, beq_self_eq_true, if_pos rfl, ← hpar]; omega
      · rw [upd_ne _ _ e, if_neg (fun h => e (beq_iff_eq.1 h).symm)]; omega
    live := fun y => by
      show 0 < upd a.gS a.ng 1 y ↔ ∃ v, upd a.guard a.ng _ y = some v
      by_cases e : y = a.ng
      · subst e; simp only [upd_same]; exact ⟨fun _ => ⟨_, rfl⟩, fun _ => Nat.one_pos⟩
      · simp only [upd_ne _ _ e]; exact h.live y
    fresh := fun y hy => by
      have : a.ng + 1 ≤ y := hy
      show upd a.guard a.ng _ y = none
      rw [upd_ne _ _ (by omega)]; exact h.fresh y (by omega)
    weak := fun y => by
      have hw := h.weak y
      show upd a.gW a.ng 1 y = _ + if y < a.ng + 1 then 1 else 0
      by_cases e : y = a.ng
      · subst e
        rw [upd_same, if_pos (by omega)]
        have : W.count a.ng = 0 := List.count_eq_zero.2 fun hm => by have := h.wlt _ hm; omega
        omega
      · rw [upd_ne _ _ e, hw]
        by_cases hl : y < a.ng
        · rw [if_pos hl, if_pos (by omega)]
        · rw [if_neg hl, if_neg (by omega)]
    wlt := fun y hy => by have := h.wlt y hy; show y < a.ng + 1; omega
    cg := fun y => by
      show C.count y = if (upd a.guard a.ng _ y).any _ then 1 else 0
      rw [hany y _ rfl]; exact h.cg y
    dg := fun y => by
      show E.count y = if (upd a.guard a.ng _ y).any _ then 1 else 0
      rw [hany y _ rfl]; exact h.dg y }

theorem GI.incW (h : GI a D W C E) {g : Nat} (hg : g < a.ng) : GI { a with gW := upd a.gW g (a.gW g + 1) } D (g :: W) C E where
  strong := h.strong
  live := h.live
  fresh := h.fresh
  weak y := by
    have := h.weak y
    simp only [upd, List.count_cons]
    by_cases e : y = g
    · subst e; simp only [if_true, beq_self_eq_true]; omega
    · simp only [e, show ¬ (g == y) = true from fun h => e (beq_iff_eq.1 h).symm, if_false, Bool.false_eq_true]; omega
  wlt y hy := by
    rcases List.mem_cons.1 hy with rfl | hy
    · exact hg
    · exact h.wlt y hy
  cg := h.cg
  dg := h.dg

theorem GI.decW (h : GI a D (g :: W) C E) : a.gW g ≠ 0 ∧ GI { a with gW := upd a.gW g (a.gW g - 1) } D W C E := by
  have hg := h.weak g
  simp only [List.count_cons, beq_self_eq_true, if_true] at hg
  refine ⟨by omega, h.strong, h.live, h.fresh, ?_, fun y hy => h.wlt y (List.mem_cons_of_mem _ hy), h.cg, h.dg⟩
  intro y
  have := h.weak y
  simp only [upd]
  by_cases e : y = g
  · subst e; rw [if_pos rfl]; omega
  · simp only [List.count_cons, e, show ¬ (g == y) = true from fun h => e (beq_iff_eq.1 h).symm, if_false, Bool.false_eq_true] at this ⊢; omega

end
end Verif.Arc
