import Verif.Arc.Proofs.Guard
/-!
# Every step keeps the books of the guards
-/

namespace Verif.Arc
open Verif.Spec (Side Slot Family Rng End)
open Verif.Rc
variable {α : Type}

theorem bind_ok {ε β γ : Type} {x : Except ε β} {f : β → Except ε γ} {r : γ} (h : (x >>= f) = .ok r) :
    ∃ y, x = .ok y ∧ f y = .ok r := by
  cases x with
  | error e => cases h
  | ok y => exact ⟨y, rfl, h⟩

theorem pure_ok {ε β : Type} {x y : β} (h : (pure x : Except ε β) = .ok y) : x = y := by cases h; rfl

@[simp] theorem aGd_taskT (t : Task) : aGd (taskT t) = [] := by cases t <;> rfl
@[simp] theorem aWk_taskT (t : Task) : aWk (taskT t) = [] := by cases t <;> rfl
@[simp] theorem aGd_base (ts : List Task) : aGd ((ts.map ATask.base).flatMap ataskT) = [] := by
  induction ts with
  | nil => rfl
  | cons t ts ih => simp only [List.map_cons, List.flatMap_cons, aGd_append, ih, ataskT, aGd_taskT, List.append_nil]
@[simp] theorem aWk_base (ts : List Task) : aWk ((ts.map ATask.base).flatMap ataskT) = [] := by
  induction ts with
  | nil => rfl
  | cons t ts ih => simp only [List.map_cons, List.flatMap_cons, aWk_append, ih, ataskT, aWk_taskT, List.append_nil]
@[simp] theorem aWk_ataskT (t : ATask) : aWk (ataskT t) = [] := by cases t <;> simp [ataskT]
@[simp] theorem aWk_atasks (ts : List ATask) : aWk (ts.flatMap ataskT) = [] := by
  induction ts with
  | nil => rfl
  | cons t ts ih => simp only [List.flatMap_cons, aWk_append, ih, aWk_ataskT, List.append_nil]
@[simp] theorem aGd_guards (l : List Nat) : aGd ((l.map ATask.guard).flatMap ataskT) = l := by
  induction l with
  | nil => rfl
  | cons t ts ih => simp only [List.map_cons, List.flatMap_cons, aGd_append, ih, ataskT]; rfl
@[simp] theorem aGd_frT (fs : List GFrame) : aGd (frT fs) = [] := by
  induction fs with
  | nil => rfl
  | cons f fs ih => simpa [frT] using ih
@[simp] theorem aWk_frT (fs : List GFrame) : aWk (frT fs) = [] := by
  induction fs with
  | nil => rfl
  | cons f fs ih => simpa [frT] using ih
@[simp] theorem gds_fgT (f : Fg) : (fgT f).gds = [] := by cases f <;> rfl
@[simp] theorem wks_fgT (f : Fg) : (fgT f).wks = [] := by cases f <;> rfl
@[simp] theorem aGd_fgT (l : List Fg) : aGd (l.map fgT) = [] := by
  induction l with
  | nil => rfl
  | cons f fs ih => simp only [List.map_cons, aGd_cons, ih, gds_fgT, List.append_nil]
@[simp] theorem aWk_fgT (l : List Fg) : aWk (l.map fgT) = [] := by
  induction l with
  | nil => rfl
  | cons f fs ih => simp only [List.map_cons, aWk_cons, ih, wks_fgT, List.append_nil]

section
variable {a a' : Arena α} {D W C E : List Nat}

theorem getG_ok {g : Nat} {v : GuardV} (h : a.getG g = .ok v) : a.guard g = some v := by
  simp only [Arena.getG] at h
  split at h <;> cases h; assumption

theorem incG_ok {g : Nat} (h : a.incG g = .ok a') : a.gS g ≠ 0 ∧ a' = { a with gS := upd a.gS g (a.gS g + 1) } := by
  simp only [Arena.incG] at h
  split at h <;> cases h; exact ⟨by assumption, rfl⟩

theorem GI.task {t : ATask} {ts : List ATask} (h : GI a (aGd (ataskT t) ++ D) W C E) (hC : ∀ x ∈ C, x ∈ D) (hE : ∀ x ∈ E, x ∈ D)
    (e : ataskStep a t = .ok (a', ts)) : GI a' (aGd (ts.flatMap ataskT) ++ D) W C E := by
  cases t with
  | base t =>
    obtain ⟨⟨h', ts'⟩, _, e2⟩ := bind_ok e
    cases pure_ok e2
    exact h.congr rfl rfl rfl rfl (by simp [ataskT]) (fun _ => rfl) (fun _ => rfl) (fun _ => rfl)
  | slice d g =>
    obtain ⟨⟨h', ts'⟩, _, e2⟩ := bind_ok e
    cases pure_ok e2
    refine h.congr rfl rfl rfl rfl (fun x => ?_) (fun _ => rfl) (fun _ => rfl) (fun _ => rfl)
    rw [List.flatMap_append, aGd_append, aGd_base]; rfl
  | guard g =>
    obtain ⟨a2, ts2, e2, I, _⟩ := GI.drop (g := g) h hC hE
    have e' : a.dropG g = .ok (a', ts) := e
    rw [e2] at e'; cases e'; exact I

theorem ite_le (b : Bool) : (if b then 1 else 0) ≤ 1 := by cases b <;> decide

theorem GI.closeC {g : Nat} {v : GuardV} (h : GI a D W C E) (hv : a.guard g = some v) (hc : ¬ v.cGate = true) :
    GI (a.setG g { v with cGate := true }) D W (g :: C) E := by
  have h1 := h.cg g; have h2 := h.dg g
  rw [hv] at h1 h2
  refine h.gate hv rfl (fun x hx => ?_) ?_ (fun _ _ => rfl) h2
  · rw [List.count_cons, if_neg (fun h => hx (beq_iff_eq.1 h).symm)]; rfl
  · rw [List.count_cons, h1]; simp [hc]

theorem GI.openC {g : Nat} {v : GuardV} (h : GI a D W (g :: C) E) (hv : a.guard g = some v) :
    GI (a.setG g { v with cGate := false }) D W C E := by
  have h1 := h.cg g; have h2 := h.dg g
  rw [hv] at h1 h2
  refine h.gate hv rfl (fun x hx => ?_) ?_ (fun _ _ => rfl) h2
  · rw [List.count_cons, if_neg (fun h => hx (beq_iff_eq.1 h).symm)]; rfl
  · have := ite_le ((some v).any (·.cGate))
    rw [List.count_cons, beq_self_eq_true, if_pos rfl] at h1
    simp only [Bool.false_eq_true, if_false]; omega

theorem GI.closeD {g : Nat} {v : GuardV} (h : GI a D W C E) (hv : a.guard g = some v) (hc : ¬ v.dGate = true) :
    GI (a.setG g { v with dGate := true }) D W C (g :: E) := by
  have h1 := h.cg g; have h2 := h.dg g
  rw [hv] at h1 h2
  refine h.gate hv rfl (fun _ _ => rfl) h1 (fun x hx => ?_) ?_
  · rw [List.count_cons, if_neg (fun h => hx (beq_iff_eq.1 h).symm)]; rfl
  · rw [List.count_cons, h2]; simp [hc]

theorem GI.openD {g : Nat} {v : GuardV} (h : GI a D W C (g :: E)) (hv : a.guard g = some v) :
    GI (a.setG g { v with dGate := false }) D W C E := by
  have h1 := h.cg g; have h2 := h.dg g
  rw [hv] at h1 h2
  refine h.gate hv rfl (fun _ _ => rfl) h1 (fun x hx => ?_) ?_
  · rw [List.count_cons, if_neg (fun h => hx (beq_iff_eq.1 h).symm)]; rfl
  · have := ite_le ((some v).any (·.dGate))
    rw [List.count_cons, beq_self_eq_true, if_pos rfl] at h2
    simp only [Bool.false_eq_true, if_false]; omega

theorem GI.pc {pc : Pc α} {n : Next α} (h : GI a (aGd (pcT pc) ++ D) (aWk (pcT pc) ++ W) (cL pc ++ C) (dL pc ++ E))
    (e : pcStep a pc = .ok (a', n)) :
    GI a' (aGd (n.tasks.flatMap ataskT ++ pcT n.pc ++ entsT n.push) ++ D) (aWk (n.tasks.flatMap ataskT ++ pcT n.pc ++ entsT n.push) ++ W)
      (cL n.pc ++ C) (dL n.pc ++ E) := by
  cases pc with
  | done r => cases e; exact h
  | new xs =>
    simp only [pcStep] at e
    split at e <;> cases e
    · exact h.congr rfl rfl rfl rfl (by simp [pcT, entsT, frT]) (by simp [pcT, entsT, frT]) (fun _ => rfl) (fun _ => rfl)
    · exact h.congr rfl rfl rfl rfl (by simp [pcT, entsT, frT]) (by simp [pcT, entsT, frT]) (fun _ => rfl) (fun _ => rfl)
  | mutNew xs =>
    simp only [pcStep] at e
    cases e
    exact h.congr rfl rfl rfl rfl (by simp [pcT, entsT, entT]) (by simp [pcT, entsT, entT]) (fun _ => rfl) (fun _ => rfl)
  | immut r =>
    simp only [pcStep] at e
    cases e
    exact h.congr rfl rfl rfl rfl (by simp [pcT, entsT]) (by simp [pcT, entsT]) (fun _ => rfl) (fun _ => rfl)
  | split s r =>
    obtain ⟨⟨h', new, rest⟩, _, e2⟩ := bind_ok e
    cases pure_ok e2
    exact h.congr rfl rfl rfl rfl (by simp [pcT, entsT, entT]) (by simp [pcT, entsT, entT]) (fun _ => rfl) (fun _ => rfl)
  | nxt en r =>
    obtain ⟨⟨h', o, r', ts⟩, _, e2⟩ := bind_ok e
    cases pure_ok e2
    exact h.congr rfl rfl rfl rfl (by simp [pcT, entsT, entT]) (by simp [pcT, entsT, entT]) (fun _ => rfl) (fun _ => rfl)
  | cut en n r =>
    simp only [pcStep] at e
    split at e
    · cases en <;>
      · obtain ⟨⟨h', new, rest⟩, _, e2⟩ := bind_ok e
        cases pure_ok e2
        exact h.congr rfl rfl rfl rfl (by simp [pcT, entsT, entT]) (by simp [pcT, entsT, entT]) (fun _ => rfl) (fun _ => rfl)
    · cases e
      exact h.congr rfl rfl rfl rfl (by simp [pcT, entsT, entT]) (by simp [pcT, entsT, entT]) (fun _ => rfl) (fun _ => rfl)
  | cl1 d g =>
    obtain ⟨h', _, e2⟩ := bind_ok e
    cases pure_ok e2
    exact h.congr rfl rfl rfl rfl (by simp [pcT, entsT]) (by simp [pcT, entsT]) (fun _ => rfl) (fun _ => rfl)
  | cl2 d g =>
    obtain ⟨a2, e1, e2⟩ := bind_ok e
    cases pure_ok e2
    obtain ⟨h1, rfl⟩ := incG_ok e1
    exact (h.inc h1).congr rfl rfl rfl rfl (by simp [pcT, entsT, entT]) (by simp [pcT, entsT, entT]) (fun _ => rfl) (fun _ => rfl)
  | wait d g s =>
    obtain ⟨v, e1, e2⟩ := bind_ok e
    split at e2 <;> cases pure_ok e2
    · exact h
    · exact h.congr rfl rfl rfl rfl (by simp [pcT, entsT]) (by simp [pcT, entsT]) (fun _ => rfl) (fun _ => rfl)
  | cs d s =>
    obtain ⟨v, e1, e2⟩ := bind_ok e
    split at e2
    · obtain ⟨h', _, e2⟩ := bind_ok e2
      cases pure_ok e2
      exact h.congr rfl rfl rfl rfl (by simp [pcT, entsT]) (by simp [pcT, entsT]) (fun _ => rfl) (fun _ => rfl)
    · split at e2 <;> cases pure_ok e2
      · exact h.congr rfl rfl rfl rfl (by simp [pcT, entsT]) (by simp [pcT, entsT]) (fun _ => rfl) (fun _ => rfl)
      · exact h.congr rfl rfl rfl rfl (by simp [pcT, entsT]) (by simp [pcT, entsT]) (fun _ => rfl) (fun _ => rfl)
  | csInc c =>
    obtain ⟨h', _, e2⟩ := bind_ok e
    cases pure_ok e2
    exact h.congr rfl rfl rfl rfl (by simp [pcT, entsT]) (by simp [pcT, entsT]) (fun _ => rfl) (fun _ => rfl)
  | csNew d s =>
    obtain ⟨v, _, e2⟩ := bind_ok e
    obtain ⟨h', _, e2⟩ := bind_ok e2
    cases pure_ok e2
    exact h.congr rfl rfl rfl rfl (by simp [pcT, entsT]) (by simp [pcT, entsT]) (fun _ => rfl) (fun _ => rfl)
  | csCas d s r =>
    obtain ⟨v, e1, e2⟩ := bind_ok e
    split at e2
    · obtain ⟨h', _, e2⟩ := bind_ok e2
      cases pure_ok e2
      exact h.congr rfl rfl rfl rfl (by simp [pcT, entsT]) (by simp [pcT, entsT]) (fun _ => rfl) (fun _ => rfl)
    · cases pure_ok e2
      exact h.congr rfl rfl rfl rfl (by simp [pcT, entsT]) (by simp [pcT, entsT]) (fun _ => rfl) (fun _ => rfl)
  | csLose c r =>
    obtain ⟨h', _, e2⟩ := bind_ok e
    cases pure_ok e2
    exact h.congr rfl rfl rfl rfl (by simp [pcT, entsT, ataskT]) (by simp [pcT, entsT, ataskT]) (fun _ => rfl) (fun _ => rfl)
  | gLoad x fs y =>
    obtain ⟨v, _, e2⟩ := bind_ok e
    cases pure_ok e2
    exact h.congr rfl rfl rfl rfl (by simp [pcT, entsT]) (by simp [pcT, entsT]) (fun _ => rfl) (fun _ => rfl)
  | gTry x b pend fs y =>
    simp only [pcStep] at e
    split at e
    · cases e
      exact h.congr rfl rfl rfl rfl (by simp [pcT, entsT]) (by simp [pcT, entsT]) (fun _ => rfl) (fun _ => rfl)
    · split at e <;> cases e
      · exact h.congr rfl rfl rfl rfl (by simp [pcT, entsT]) (by simp [pcT, entsT]) (fun _ => rfl) (fun _ => rfl)
      · next g _ hg =>
        exact (h.inc hg).congr rfl rfl rfl rfl (by intro x; simp [pcT, entsT, List.count_cons, List.count_append]; omega)
          (by simp [pcT, entsT]) (fun _ => rfl) (fun _ => rfl)
  | gPar x b fs y =>
    obtain ⟨v, _, e2⟩ := bind_ok e
    split at e2
    · cases pure_ok e2
      exact h.congr rfl rfl rfl rfl (by simp [pcT, entsT]) (by simp [pcT, entsT]) (fun _ => rfl) (fun _ => rfl)
    · split at e2
      · cases pure_ok e2
        exact h.congr rfl rfl rfl rfl (by simp [pcT, entsT]) (by simp [pcT, entsT]) (fun _ => rfl) (fun _ => rfl)
      · obtain ⟨h', _, e2⟩ := bind_ok e2
        cases pure_ok e2
        exact h.congr rfl rfl rfl rfl (by simp [pcT, entsT]) (by simp [pcT, entsT]) (fun _ => rfl) (fun _ => rfl)
  | gCas x b og fs y =>
    obtain ⟨v, _, e2⟩ := bind_ok e
    split at e2 <;> cases pure_ok e2
    · have h' : GI a (og.toList ++ D) (aWk (pcT (.gCas x b og fs y : Pc α)) ++ W) C E :=
        h.congr rfl rfl rfl rfl (by simp [pcT]) (fun _ => rfl) (by simp [cL]) (by simp [dL])
      exact (h'.new x).congr rfl rfl rfl rfl (by simp [pcT, entsT]) (by simp [pcT, entsT]) (fun _ => rfl) (fun _ => rfl)
    · exact h.congr rfl rfl rfl rfl (by simp [pcT, entsT]) (by simp [pcT, entsT]) (fun _ => rfl) (fun _ => rfl)
  | gRet g fs y =>
    cases fs with
    | nil => 
      cases e
      exact h.congr rfl rfl rfl rfl (by simp [pcT, entsT, entT]) (by simp [pcT, entsT, entT]) (fun _ => rfl) (fun _ => rfl)
    | cons f fs =>
      cases e
      exact h.congr rfl rfl rfl rfl (by simp [pcT, entsT, ataskT]) (by simp [pcT, entsT, ataskT]) (fun _ => rfl) (fun _ => rfl)
  | gm0 d g =>
    obtain ⟨v, e1, e2⟩ := bind_ok e
    have hv := getG_ok e1
    split at e2 <;> cases pure_ok e2
    · exact h.congr rfl rfl rfl rfl (by simp [pcT, entsT, entT]) (by simp [pcT, entsT, entT]) (fun _ => rfl) (fun _ => rfl)
    · next hd => exact (h.closeD hv hd).congr rfl rfl rfl rfl (by simp [pcT, entsT]) (by simp [pcT, entsT]) (fun _ => rfl) (fun _ => rfl)
  | gm1 d g =>
    obtain ⟨v, e1, e2⟩ := bind_ok e
    split at e2 <;> cases pure_ok e2 <;> exact h.congr rfl rfl rfl rfl (by simp [pcT, entsT]) (by simp [pcT, entsT]) (fun _ => rfl) (fun _ => rfl)
  | gm2 d g =>
    obtain ⟨v, e1, e2⟩ := bind_ok e
    have hv := getG_ok e1
    split at e2 <;> cases pure_ok e2
    · exact h.congr rfl rfl rfl rfl (by simp [pcT, entsT]) (by simp [pcT, entsT]) (fun _ => rfl) (fun _ => rfl)
    · next hd => exact (h.closeC hv hd).congr rfl rfl rfl rfl (by simp [pcT, entsT]) (by simp [pcT, entsT]) (fun _ => rfl) (fun _ => rfl)
  | gm3 d g =>
    obtain ⟨v, e1, e2⟩ := bind_ok e
    split at e2 <;> cases pure_ok e2 <;> exact h.congr rfl rfl rfl rfl (by simp [pcT, entsT]) (by simp [pcT, entsT]) (fun _ => rfl) (fun _ => rfl)
  | gm4 d g =>
    obtain ⟨v, e1, e2⟩ := bind_ok e
    cases pure_ok e2
    exact h.congr rfl rfl rfl rfl (by simp [pcT, entsT]) (by simp [pcT, entsT]) (fun _ => rfl) (fun _ => rfl)
  | gmOpenC d g ok =>
    obtain ⟨v, e1, e2⟩ := bind_ok e
    have hv := getG_ok e1
    cases pure_ok e2
    have h' : GI a (aGd (pcT (.gmOpenC d g ok : Pc α)) ++ D) (aWk (pcT (.gmOpenC d g ok : Pc α)) ++ W) (g :: C) (g :: E) := h
    exact (h'.openC hv).congr rfl rfl rfl rfl (by simp [pcT, entsT]) (by simp [pcT, entsT]) (fun _ => rfl) (fun _ => rfl)
  | gmOpenD d g ok =>
    obtain ⟨v, e1, e2⟩ := bind_ok e
    have hv := getG_ok e1
    cases pure_ok e2
    have h' : GI a (aGd (pcT (.gmOpenD d g ok : Pc α)) ++ D) (aWk (pcT (.gmOpenD d g ok : Pc α)) ++ W) C (g :: E) := h
    exact (h'.openD hv).congr rfl rfl rfl rfl (by simp [pcT, entsT, entT]) (by simp [pcT, entsT, entT]) (fun _ => rfl) (fun _ => rfl)
  | im0 d g =>
    obtain ⟨v, e1, e2⟩ := bind_ok e
    have hv := getG_ok e1
    split at e2 <;> cases pure_ok e2
    · exact h.congr rfl rfl rfl rfl (by simp [pcT, entsT, entT]) (by simp [pcT, entsT, entT]) (fun _ => rfl) (fun _ => rfl)
    · next hd => exact (h.closeC hv hd).congr rfl rfl rfl rfl (by simp [pcT, entsT]) (by simp [pcT, entsT]) (fun _ => rfl) (fun _ => rfl)
  | im1 d g =>
    obtain ⟨v, e1, e2⟩ := bind_ok e
    split at e2 <;> cases pure_ok e2 <;> exact h.congr rfl rfl rfl rfl (by simp [pcT, entsT]) (by simp [pcT, entsT]) (fun _ => rfl) (fun _ => rfl)
  | im2 d g =>
    obtain ⟨v, e1, e2⟩ := bind_ok e
    split at e2 <;> cases pure_ok e2 <;> exact h.congr rfl rfl rfl rfl (by simp [pcT, entsT]) (by simp [pcT, entsT]) (fun _ => rfl) (fun _ => rfl)
  | imOpen d g =>
    obtain ⟨v, e1, e2⟩ := bind_ok e
    have hv := getG_ok e1
    cases pure_ok e2
    have h' : GI a (aGd (pcT (.imOpen d g : Pc α)) ++ D) (aWk (pcT (.imOpen d g : Pc α)) ++ W) (g :: C) E := h
    exact (h'.openC hv).congr rfl rfl rfl rfl (by simp [pcT, entsT, entT]) (by simp [pcT, entsT, entT]) (fun _ => rfl) (fun _ => rfl)
  | imFg todo g r acc =>
    cases todo with
    | nil => cases e; exact h.congr rfl rfl rfl rfl (by simp [pcT, entsT]) (by simp [pcT, entsT]) (fun _ => rfl) (fun _ => rfl)
    | cons f todo =>
      cases f with
      | val w => cases e; exact h.congr rfl rfl rfl rfl (by simp [pcT, fgT, entsT, ataskT]) (by simp [pcT, fgT, entsT, ataskT]) (fun _ => rfl) (fun _ => rfl)
      | kid c =>
        obtain ⟨v, e1, e2⟩ := bind_ok e
        split at e2 <;> cases pure_ok e2
        · exact h.congr rfl rfl rfl rfl (by simp [pcT, fgT, entsT]) (by simp [pcT, fgT, entsT]) (fun _ => rfl) (fun _ => rfl)
        · exact h.congr rfl rfl rfl rfl (by simp [pcT, fgT, entsT, ataskT]) (by simp [pcT, fgT, entsT, ataskT]) (fun _ => rfl) (fun _ => rfl)
  | imGate g r acc =>
    obtain ⟨v, e1, e2⟩ := bind_ok e
    have hv := getG_ok e1
    cases pure_ok e2
    have h' : GI a (aGd (pcT (.imGate g r acc : Pc α)) ++ D) (aWk (pcT (.imGate g r acc : Pc α)) ++ W) (g :: C) E := h
    exact (h'.openC hv).congr rfl rfl rfl rfl (by simp [pcT, entsT, ataskT]) (by simp [pcT, entsT, ataskT]) (fun _ => rfl) (fun _ => rfl)
  | imOk r acc => cases e; exact h.congr rfl rfl rfl rfl (by simp [pcT, entsT, entT]) (by simp [pcT, entsT, entT]) (fun _ => rfl) (fun _ => rfl)
  | dg0 d g =>
    obtain ⟨v, e1, e2⟩ := bind_ok e
    split at e2 <;> cases pure_ok e2 <;> exact h.congr rfl rfl rfl rfl (by simp [pcT, entsT]) (by simp [pcT, entsT]) (fun _ => rfl) (fun _ => rfl)
  | dg1 d g =>
    obtain ⟨v, e1, e2⟩ := bind_ok e
    have hv := getG_ok e1
    cases pure_ok e2
    exact (h.incW (h.lt hv)).congr rfl rfl rfl rfl (by simp [pcT, entsT, entT]) (by simp [pcT, entsT, entT]) (fun _ => rfl) (fun _ => rfl)
  | up d =>
    cases d with
    | none => cases e; exact h.congr rfl rfl rfl rfl (by simp [pcT, entsT]) (by simp [pcT, entsT]) (fun _ => rfl) (fun _ => rfl)
    | some d =>
      simp only [pcStep] at e
      split at e
      · cases e; exact h.congr rfl rfl rfl rfl (by simp [pcT, entsT]) (by simp [pcT, entsT]) (fun _ => rfl) (fun _ => rfl)
      · obtain ⟨h', _, e2⟩ := bind_ok e
        cases pure_ok e2
        exact h.congr rfl rfl rfl rfl (by simp [pcT, entsT]) (by simp [pcT, entsT]) (fun _ => rfl) (fun _ => rfl)
  | wc d g =>
    cases g with
    | none => cases e; exact h.congr rfl rfl rfl rfl (by simp [pcT, entsT, entT]) (by simp [pcT, entsT, entT]) (fun _ => rfl) (fun _ => rfl)
    | some g =>
      simp only [pcStep] at e
      split at e <;> cases e
      next hg =>
      have hlt : g < a.ng := by
        refine Decidable.byContradiction fun hn => ?_
        have hw := h.weak g
        rw [if_neg hn] at hw
        exact hn (h.wlt g (List.count_pos_iff.1 (by omega)))
      exact (h.incW hlt).congr rfl rfl rfl rfl (by simp [pcT, entsT, entT]) (by simp [pcT, entsT, entT]) (fun _ => rfl) (fun _ => rfl)
  | wd g =>
    cases g with
    | none => cases e; exact h.congr rfl rfl rfl rfl (by simp [pcT, entsT]) (by simp [pcT, entsT]) (fun _ => rfl) (fun _ => rfl)
    | some g =>
      simp only [pcStep] at e
      split at e <;> cases e
      have h' : GI a (aGd (pcT (.wd (some g) : Pc α)) ++ D) (g :: W) C E := h
      exact h'.decW.2.congr rfl rfl rfl rfl (by simp [pcT, entsT]) (by simp [pcT, entsT]) (fun _ => rfl) (fun _ => rfl)

theorem GI.call {cl cl' : Call α} {new : List Ent}
    (h : GI a (aGd (callT cl) ++ D) (aWk (callT cl) ++ W) (cL cl.pc ++ C) (dL cl.pc ++ E))
    (hC : ∀ x ∈ C, x ∈ D) (hE : ∀ x ∈ E, x ∈ D) (e : callStep a cl = .ok (a', cl', new)) :
    GI a' (aGd (callT cl' ++ entsT new) ++ D) (aWk (callT cl' ++ entsT new) ++ W) (cL cl'.pc ++ C) (dL cl'.pc ++ E) := by
  simp only [callStep] at e
  split at e
  · next t ts ht =>
    obtain ⟨⟨a2, ts2⟩, e1, e2⟩ := bind_ok e
    cases pure_ok e2
    have h' : GI a (aGd (ataskT t) ++ (aGd (ts.flatMap ataskT) ++ aGd (pcT cl.pc) ++ D)) (aWk (callT cl) ++ W) (cL cl.pc ++ C)
        (dL cl.pc ++ E) :=
      h.congr rfl rfl rfl rfl (by simp [callT, ht]) (fun _ => rfl) (fun _ => rfl) (fun _ => rfl)
    have := h'.task (by
      intro x hx
      rcases List.mem_append.1 hx with hx | hx
      · exact List.mem_append_left _ (List.mem_append_right _ (cL_sub _ hx))
      · exact List.mem_append_right _ (hC x hx)) (by
      intro x hx
      rcases List.mem_append.1 hx with hx | hx
      · exact List.mem_append_left _ (List.mem_append_right _ (dL_sub _ hx))
      · exact List.mem_append_right _ (hE x hx)) e1
    exact this.congr rfl rfl rfl rfl (by simp [callT, entsT]) (by simp [callT, entsT]) (fun _ => rfl) (fun _ => rfl)
  · next ht =>
    obtain ⟨⟨a2, n⟩, e1, e2⟩ := bind_ok e
    cases pure_ok e2
    have h' : GI a (aGd (pcT cl.pc) ++ D) (aWk (pcT cl.pc) ++ W) (cL cl.pc ++ C) (dL cl.pc ++ E) :=
      h.congr rfl rfl rfl rfl (by simp [callT, ht]) (by simp [callT, ht]) (fun _ => rfl) (fun _ => rfl)
    exact (h'.pc e1).congr rfl rfl rfl rfl (by simp [callT, entsT]) (by simp [callT, entsT]) (fun _ => rfl) (fun _ => rfl)

end

/-- The books of the guards, for the whole configuration. -/
def Conf.GI (c : Conf α) : Prop :=
  Arc.GI c.a (aGd c.T) (aWk c.T) (c.calls.flatMap fun cl => cL cl.pc) (c.calls.flatMap fun cl => dL cl.pc)

theorem aGd_perm {T U : List AT} (p : T.Perm U) : (aGd T).Perm (aGd U) := p.flatMap_right _
theorem aWk_perm {T U : List AT} (p : T.Perm U) : (aWk T).Perm (aWk U) := p.flatMap_right _

theorem latch_sub (f : Pc α → List Nat) (hf : ∀ pc g, g ∈ f pc → g ∈ aGd (pcT pc)) (l : List (Call α)) {g : Nat}
    (h : g ∈ l.flatMap fun cl => f cl.pc) : g ∈ aGd (l.flatMap callT) := by
  obtain ⟨cl, h1, h2⟩ := List.mem_flatMap.1 h
  obtain ⟨t, h3, h4⟩ := List.mem_flatMap.1 (hf _ _ h2)
  exact mem_aGd (List.mem_flatMap.2 ⟨cl, h1, List.mem_append_right _ h3⟩) h4

theorem Conf.GI.step {c c' : Conf α} {i : Nat} (h : c.GI) (e : c.step i = .ok c') : c'.GI := by
  rcases Conf.step_cases e with ⟨_, rfl⟩ | ⟨cl, a', cl', new, hi, hs, rfl⟩
  · exact h
  · have key : ∀ f : Pc α → List Nat, ∀ g, (c.calls.flatMap fun cl => f cl.pc).count g =
        (f cl.pc ++ ((c.calls.take i ++ c.calls.drop (i + 1)).flatMap fun cl => f cl.pc)).count g := by
      intro f g
      conv => lhs; rw [list_split hi]
      simp only [List.flatMap_append, List.flatMap_cons, List.count_append]; omega
    have key' : ∀ f : Pc α → List Nat, ∀ g, ((c.after i a' cl' new).calls.flatMap fun cl => f cl.pc).count g =
        (f cl'.pc ++ ((c.calls.take i ++ c.calls.drop (i + 1)).flatMap fun cl => f cl.pc)).count g := by
      intro f g
      simp only [Conf.after, set_split hi, List.flatMap_append, List.flatMap_cons, List.count_append]; omega
    have h1 : Arc.GI c.a (aGd (callT cl) ++ aGd (c.rest i)) (aWk (callT cl) ++ aWk (c.rest i)) _ _ :=
      Arc.GI.congr h rfl rfl rfl rfl (fun g => by rw [← aGd_append]; exact ((aGd_perm (Conf.T_perm hi)).count_eq g).symm)
        (fun g => by rw [← aWk_append]; exact ((aWk_perm (Conf.T_perm hi)).count_eq g).symm)
        (fun g => (key cL g).symm) (fun g => (key dL g).symm)
    have h2 := h1.call (fun x hx => ?_) (fun x hx => ?_) hs
    · refine Arc.GI.congr (a' := (c.after i a' cl' new).a) h2 rfl rfl rfl rfl (fun g => ?_) (fun g => ?_) (key' cL) (key' dL)
      · rw [← aGd_append]; exact (aGd_perm (Conf.after_T hi a' cl' new)).count_eq g
      · rw [← aWk_append]; exact (aWk_perm (Conf.after_T hi a' cl' new)).count_eq g
    · have := latch_sub cL (fun pc g => cL_sub pc) _ hx
      simp only [Conf.rest, aGd_append, List.mem_append]; exact .inr this
    · have := latch_sub dL (fun pc g => dL_sub pc) _ hx
      simp only [Conf.rest, aGd_append, List.mem_append]; exact .inr this

/-- Every step keeps the gates as they are, unless it says so. -/
theorem Conf.start_latch {c c' : Conf α} {op : Op α} (h : c.start op = some c') (f : Pc α → List Nat)
    (hf : ∀ pc : Pc α, f pc ⊆ cL pc ++ dL pc) :
    (c'.calls.flatMap fun cl => f cl.pc) = (c.calls.flatMap fun cl => f cl.pc) := by
  have h0 : ∀ pc : Pc α, cL pc = [] → dL pc = [] → f pc = [] := by
    intro pc h1 h2
    have := hf pc
    rw [h1, h2] at this
    exact List.subset_nil.1 this
  have hadd : ∀ cl : Call α, cL cl.pc = [] → dL cl.pc = [] →
      ((c.calls ++ [cl]).flatMap fun cl => f cl.pc) = (c.calls.flatMap fun cl => f cl.pc) := by
    intro cl h1 h2
    simp [h0 _ h1 h2]
  cases op <;> simp only [Conf.start] at h <;> (try split at h) <;> (try split at h) <;>
    first | (cases h; done) | (cases h; first | rfl | exact hadd _ rfl rfl)

theorem Conf.GI.start {c c' : Conf α} {op : Op α} (h : c.GI) (e : c.start op = some c') : c'.GI := by
  obtain ⟨p, ea⟩ := Conf.start_T e
  have h1 := Conf.start_latch e cL (fun pc x hx => List.mem_append_left _ hx)
  have h2 := Conf.start_latch e dL (fun pc x hx => List.mem_append_right _ hx)
  refine Arc.GI.congr h (by rw [ea]) (by rw [ea]) (by rw [ea]) (by rw [ea]) (fun g => (aGd_perm p).count_eq g)
    (fun g => (aWk_perm p).count_eq g) (fun g => by rw [h1]) (fun g => by rw [h2])

theorem Conf.write_eq {c c' : Conf α} {e : Ent} {j : Nat} {x : α} (h : c.write e j x = .ok c') :
    c' = c ∨ ∃ b off len h', Conf.range c.a e.h = .ok (some (b, off, len)) ∧ j < len ∧ writeItem c.a.b b (off + j) x = .ok h' ∧
      c' = { c with a := c.a.withB h' } := by
  simp only [Conf.write] at h
  obtain ⟨o, e1, e2⟩ := bind_ok h
  cases o with
  | none => exact .inl (pure_ok e2).symm
  | some o =>
    obtain ⟨b, off, len⟩ := o
    simp only at e2
    split at e2
    · next hj =>
      obtain ⟨h', e3, e4⟩ := bind_ok e2
      exact .inr ⟨b, off, len, h', e1, hj, e3, (pure_ok e4).symm⟩
    · exact .inl (pure_ok e2).symm

theorem Conf.GI.write {c c' : Conf α} {en : Ent} {j : Nat} {x : α} (h : c.GI) (e : c.write en j x = .ok c') : c'.GI := by
  rcases Conf.write_eq e with rfl | ⟨b, off, len, h', _, _, _, rfl⟩
  · exact h
  · exact Arc.GI.congr h rfl rfl rfl rfl (fun _ => rfl) (fun _ => rfl) (fun _ => rfl) (fun _ => rfl)

theorem Conf.init_GI (zst : Bool) : (Conf.init zst : Conf α).GI where
  strong g := by simp [Conf.init, Conf.T, prefs]
  live g := by simp [Conf.init]
  fresh g _ := rfl
  weak g := by simp [Conf.init, Conf.T]
  wlt g hg := by simp [Conf.init, Conf.T] at hg
  cg g := by simp [Conf.init]
  dg g := by simp [Conf.init]

/-- The books of the guards are balanced at all times. -/
theorem Conf.Reach.GI {P : Rules α} {zst : Bool} {c : Conf α} (h : Conf.Reach P zst c) : c.GI := by
  induction h with
  | init => exact Conf.init_GI zst
  | run _ i e ih => exact ih.step e
  | start _ op _ e ih => exact ih.start e
  | write _ k en j x _ _ e ih => exact ih.write e

end Verif.Arc
