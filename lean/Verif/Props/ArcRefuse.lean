import Verif.Arc.Proofs.Refuse
import Verif.Props.ArcExclusive
import Verif.Props.ArcLive
/-!
# C45: when `ArcSlice::get_mut` and `into_mut` are refused

`get_mut` and `into_mut` count handles while other threads make and drop them. Whatever these
do: as long as one other overlapping `ArcSlice` is there from the beginning to the end of the
call, the call is refused; for `get_mut` it is enough if a `WeakSlice` that was made from the
handle (or from a clone of it, or is a clone of such a `WeakSlice`) is there all the time.
-/

namespace Verif
open Arc
open Spec (Side Slot)
variable {α : Type} {P : Rules α} {zst : Bool} {c c1 c2 : Conf α}

namespace Arc

/-- The places of two slices in their tree do not change. -/
def Fix (c : Conf α) (d d' : Nat) (l l' : Rc.Lab) : Prop :=
  c.a.b.sk.lab d = l ∧ c.a.b.sk.lab d' = l' ∧ d < c.a.b.sk.next ∧ d' < c.a.b.sk.next

theorem Fix.run (hP : Tame P) (h : Conf.Reach P zst c) {d d' : Nat} {l l' : Rc.Lab} (F : Fix c d d' l l') {tr : List (Conf α × Nat)}
    (run : Run P c tr c1) : Fix c1 d d' l l' := by
  induction run with
  | refl => exact F
  | step r i e ih =>
    obtain ⟨h1, h2, h3, h4⟩ := ih
    obtain ⟨c3, e3, ev⟩ := Conf.Reach.step hP (r.reach h) i
    rw [e] at e3; cases e3
    have v := ev.evo.evo
    exact ⟨by rw [v.lab d h3, h1], by rw [v.lab d' h4, h2], Nat.lt_of_lt_of_le h3 v.next, Nat.lt_of_lt_of_le h4 v.next⟩
  | start r op hp e ih =>
    have ha := (Conf.start_T e).2
    have := ih
    simpa only [Fix, ha] using this
  | write r k en j x hk hw e ih =>
    have := ih
    rcases Conf.write_cases e with rfl | ⟨b, i, rfl⟩
    · exact this
    · exact this

/-- Two overlapping handles: one is at or below the other. -/
theorem overlapping (hP : Tame P) (h : Conf.Reach P zst c) {k k' b i d g : Nat} {m : Bool} (hk : c.get k = some ⟨.strong d g, m⟩)
    (h1 : c.Shows k b i) (h2 : c.Shows k' b i) (hne : k' ≠ k) :
    ∃ d' g' m', c.get k' = some ⟨.strong d' g', m'⟩ ∧ Fix c d d' (c.a.b.sk.lab d) (c.a.b.sk.lab d') ∧
      ((c.a.b.sk.lab d).up (c.a.b.sk.lab d') ∨ (c.a.b.sk.lab d').up (c.a.b.sk.lab d) ∧ c.a.b.sk.lab d' ≠ c.a.b.sk.lab d) := by
  have B := h.BI hP
  obtain ⟨d1, g1, m1, v, d', g', m', v', hk1, hk', hd, hd', hu⟩ := overlap B h1 h2 hne
  rw [hk] at hk1; cases hk1
  refine ⟨d', g', m', hk', ⟨rfl, rfl, B.heap.base.lt hd, B.heap.base.lt hd'⟩, ?_⟩
  rcases hu with hu | hu
  · exact .inl hu
  · by_cases e : c.a.b.sk.lab d' = c.a.b.sk.lab d
    · exact .inl (by rw [e]; exact Rc.Lab.up_refl _)
    · exact .inr ⟨hu, e⟩

theorem refused_run (hP : Tame P) (h : Conf.Reach P zst c1) {j k' d g d' g' l : Nat} {im : Bool} {x x' : Rc.Lab} (R : c1.RF j k' (.strong d' g') d g l im)
    (F : Fix c1 d d' x x') (hl : l = 1 ∧ x.up x' ∨ l = 2 ∧ x'.up x ∧ x' ≠ x) {tr : List (Conf α × Nat)}
    (run : Run P c1 tr c2) : c2.RF j k' (.strong d' g') d g l im := by
  induction run with
  | refl => exact R
  | @step c2 c3 tr r i e ih =>
    have R := ih
    have hr := r.reach h
    have B := hr.BI hP
    have G := hr.GFI hP
    obtain ⟨f1, f2, _, _⟩ := F.run hP h r
    refine R.step e (fun b hk h0 => by omega) (fun b cl hk hj hp h1 hg => ?_) (fun b cl hk hj hp h2 hr => ?_)
    · have hpc := (B.calls j cl hj).1
      have hg' := (G.calls j cl hj).1
      have hu : x.up x' := by
        rcases hl with ⟨_, hl⟩ | ⟨hl, _⟩
        · exact hl
        · omega
      have hkd : c2.a.b.sk.kind d = .data ∧ ofG c2.a d g ∧ .ref d ∈ pcT cl.pc := by
        cases hp' : cl.pc <;> rw [hp'] at hp hpc hg' hg <;> simp only [refusing] at hp <;>
          first
          | (obtain ⟨rfl, rfl⟩ := hp; exact ⟨hpc, hg', by simp [pcT]⟩)
          | (obtain ⟨rfl, rfl, _⟩ := hp; exact ⟨hpc, hg', by simp [pcT]⟩)
          | (simp [pcT] at hg)
          | exact False.elim hp
      exact busy_below B G hj (List.mem_append_right _ hkd.2.2) (List.mem_append_right _ hg) hkd.2.1 hkd.1 hk (by rw [f1, f2]; exact hu)
    · have hpc := (B.calls j cl hj).1
      have hu : x'.up x ∧ x' ≠ x := by
        rcases hl with ⟨hl, _⟩ | ⟨_, hl⟩
        · omega
        · exact hl
      have hkd : c2.a.b.sk.kind d = .data := by
        cases hp' : cl.pc <;> rw [hp'] at hp hpc hr <;> simp only [refusing] at hp <;>
          first
          | (obtain ⟨rfl, rfl⟩ := hp; exact hpc)
          | (obtain ⟨rfl, rfl, _⟩ := hp; exact hpc)
          | (simp [pcT] at hr)
          | exact False.elim hp
      exact busy_above B hj (List.mem_append_right _ hr) hkd hk (by rw [f1, f2]; exact hu.1) (by rw [f1, f2]; exact hu.2)
  | start r op hp e ih => exact (ih).start e
  | write r k en j x hk hw e ih => exact (ih).write e

/-- A handle that is there at the end was there all the time, and was the same. -/
theorem get_back {k : Nat} {tr : List (Conf α × Nat)} {e : Ent} (run : Run P c1 tr c2) (hl : k < c1.hs.length) (hk : c2.get k = some e) :
    ∃ e', c1.get k = some e' ∧ e'.h = e.h := by
  have len : ∀ {tr : List (Conf α × Nat)} {c2 : Conf α}, Run P c1 tr c2 → c1.hs.length ≤ c2.hs.length := by
    intro tr c2 r
    induction r with
    | refl => exact Nat.le_refl _
    | step r i e ih => exact Nat.le_trans ih (step_len e)
    | start r op hp e ih => exact Nat.le_trans ih (start_len (.of e))
    | write r k en j x hk hw e ih =>
      rcases Conf.write_cases e with rfl | ⟨b, i, rfl⟩ <;> exact ih
  induction run generalizing e with
  | refl => exact ⟨e, hk, rfl⟩
  | step r i h ih => exact ih (step_get_back h (Nat.lt_of_lt_of_le hl (len r)) hk)
  | start r op hp h ih =>
    obtain ⟨e1, h1, h2⟩ := start_get_back h (Nat.lt_of_lt_of_le hl (len r)) hk
    obtain ⟨e2, h3, h4⟩ := ih h1
    exact ⟨e2, h3, h4.trans h2⟩
  | write r k en j x hk' hw h ih =>
    rcases Conf.write_cases h with rfl | ⟨b, i, rfl⟩
    · exact ih hk
    · exact ih hk

theorem start_getMut {k : Nat} (hs : c.start (.getMut k) = some c1) :
    ∃ d g, c.get k = some ⟨.strong d g, false⟩ ∧ c1 = c.taking (.getMut k) k (.gm0 d g) := by
  simp only [Conf.start] at hs
  split at hs
  · rename_i d g hk
    split at hs
    · cases hs
    · cases hs; exact ⟨d, g, hk, rfl⟩
  · cases hs

theorem start_intoMut {k : Nat} (hs : c.start (.intoMut k) = some c1) :
    ∃ d g, c.get k = some ⟨.strong d g, false⟩ ∧ c1 = c.taking (.intoMut k) k (.im0 d g) := by
  simp only [Conf.start] at hs
  split at hs
  · rename_i d g hk
    split at hs
    · cases hs
    · cases hs; exact ⟨d, g, hk, rfl⟩
  · cases hs

/-- The call begins. -/
theorem RF_taking {op : Op α} {k k' : Nat} {pc : Pc α} {e' : Handle} {d g l : Nat} {im : Bool} (hl : k' < c.hs.length)
    (hp : refusing d g l im pc) : (c.taking op k pc).RF c.calls.length k' e' d g l im :=
  ⟨by simpa [Conf.taking] using hl, { op, pc, tasks := [], on := c.node k }, by simp [Conf.taking], (fun m h => by cases h),
    fun b hk => ⟨rfl, hp, fun m h => by cases h⟩⟩

/-- The call ends. -/
theorem RF_end {j k' : Nat} {e' : Handle} {d g l : Nat} {im : Bool} (R : c.RF j k' e' d g l im) {b : Bool} (hk : c.get k' = some ⟨e', b⟩)
    {cl : Call α} (hcl : c.calls[j]? = some cl) (hf : cl.fin = true) :
    cl.pc = .done (if im then .err else .none) ∧ ∀ m ∈ cl.out, ∀ e, c.get m = some e → e.h = .strong d g := by
  obtain ⟨cl', h1, _, h2⟩ := R.call
  rw [hcl] at h1; cases h1
  obtain ⟨h3, h4, h5⟩ := h2 b hk
  refine ⟨?_, h5⟩
  simp only [Call.fin, Bool.and_eq_true] at hf
  cases hp : cl.pc <;> rw [hp] at hf h4 <;> simp only [Pc.isDone, Bool.false_eq_true, and_false] at hf
  rename_i r
  cases r <;> simp only [refusing] at h4 <;> rw [h4] <;> rfl

/-- `get_mut` and `into_mut` at once. -/
theorem refused (hP : Tame P) (h : Conf.Reach P zst c) {k k' b i : Nat} (h1 : c.Shows k b i) (h2 : c.Shows k' b i)
    (hne : k' ≠ k) {op : Op α} (hp : P c op) (hs : c.start op = some c1) {im : Bool} {d g : Nat} {pc : Pc α}
    (hk : c.get k = some ⟨.strong d g, false⟩) (e1 : c1 = c.taking op k pc)
    (hpc : ∀ l, 1 ≤ l → refusing d g l im pc) {tr : List (Conf α × Nat)}
    (run : Run P c1 tr c2) (hk' : c2.get k' ≠ none) {cl : Call α} (hcl : c2.calls[c.calls.length]? = some cl)
    (hf : cl.fin = true) :
    cl.pc = .done (if im then .err else .none) ∧ ∀ m ∈ cl.out, ∀ e, c2.get m = some e → e.h = .strong d g := by
  obtain ⟨d', g', m', hk1, F, hu⟩ := overlapping hP h hk h1 h2 hne
  have hr : Conf.Reach P zst c1 := .start h op hp hs
  have hl := c.get_lt hk1
  have hl1 : k' < c1.hs.length := Nat.lt_of_lt_of_le hl (start_len (.of hs))
  have F1 : Fix c1 d d' (c.a.b.sk.lab d) (c.a.b.sk.lab d') := by rw [e1]; exact F
  obtain ⟨e, he⟩ := Option.ne_none_iff_exists'.1 hk'
  obtain ⟨e2, he2, hh⟩ := get_back run hl1 he
  have he3 : c.get k' = some e2 := by
    rw [e1] at he2
    simpa [Conf.get, Conf.taking, List.getElem?_set, Ne.symm hne] using he2
  rw [hk1] at he3; cases he3
  obtain ⟨eh, eb⟩ := e
  obtain rfl : .strong d' g' = eh := hh
  rcases hu with hu | hu
  · have R : c1.RF c.calls.length k' (.strong d' g') d g 1 im := by rw [e1]; exact RF_taking hl (hpc 1 (by omega))
    exact RF_end (refused_run hP hr R F1 (.inl ⟨rfl, hu⟩) run) he hcl hf
  · have R : c1.RF c.calls.length k' (.strong d' g') d g 2 im := by rw [e1]; exact RF_taking hl (hpc 2 (by omega))
    exact RF_end (refused_run hP hr R F1 (.inr ⟨rfl, hu⟩) run) he hcl hf

/-- A `WeakSlice` of the guard is seen by the check of the weak count. -/
theorem weak_busy (h : Conf.Reach P zst c) {w g : Nat} {d : Option Nat} {m : Bool} (hw : c.get w = some ⟨.weak d (some g), m⟩) :
    c.a.gW g ≠ 1 := by
  have G := h.GI
  have h1 : g ∈ aWk c.T := by
    have : AT.wk g ∈ c.T := Conf.get_tok' hw (by simp [entT])
    simp only [aWk, List.mem_flatMap]
    exact ⟨_, this, by simp [AT.wks]⟩
  have h2 := G.weak g
  have h3 := G.wlt g h1
  have h4 := List.count_pos_iff.2 h1
  rw [if_pos h3] at h2
  omega

theorem refused_weak_run (h : Conf.Reach P zst c1) {j w d g : Nat} {d' : Option Nat} (R : c1.RF j w (.weak d' (some g)) d g 0 false)
    {tr : List (Conf α × Nat)} (run : Run P c1 tr c2) : c2.RF j w (.weak d' (some g)) d g 0 false := by
  induction run with
  | refl => exact R
  | step r i e ih =>
    exact ih.step e (fun b hk _ => weak_busy (r.reach h) hk) (fun _ _ _ _ _ h => by omega) (fun _ _ _ _ _ h => by omega)
  | start r op hp e ih => exact ih.start e
  | write r k en j x hk hw e ih => exact ih.write e

/-- Where a call is that returns nothing but handles `H`. -/
def makes (H : Handle) : Pc α → Prop
  | .cl1 d g | .cl2 d g | .gm0 d g | .gm1 d g | .gm2 d g | .gm3 d g | .gm4 d g | .gmOpenC d g _ | .gmOpenD d g _ => H = .strong d g
  | .wc d g => H = .weak d g
  | .dg0 d g | .dg1 d g => H = .weak (some d) (some g)
  | .done _ => True
  | _ => False

theorem makes_step {a a' : Arena α} {pc : Pc α} {n : Next α} {H : Handle} (e : PStep a pc a' n) (h : makes H pc) :
    n.tasks = [] ∧ makes H n.pc ∧ ∀ e ∈ n.push, e.h = H := by
  cases e <;> first
    | exact False.elim h
    | (refine ⟨rfl, h, fun e he => ?_⟩; cases he)
    | (refine ⟨rfl, trivial, fun e he => ?_⟩; cases he <;> first | exact h.symm | (rename_i he; cases he))

structure Made (c : Conf α) (j : Nat) (H : Handle) : Prop where
  call : ∃ cl, c.calls[j]? = some cl ∧ cl.tasks = [] ∧ makes H cl.pc ∧ ∀ m ∈ cl.out, m < c.hs.length ∧ ∀ e, c.get m = some e → e.h = H

theorem Made.step {j i : Nat} {H : Handle} (M : Made c j H) (h : c.step i = .ok c1) : Made c1 j H := by
  obtain ⟨cl, hj, ht, hm, ho⟩ := M.call
  have hlen := step_len h
  have other : c1.calls[j]? = some cl → Made c1 j H := fun h1 => ⟨cl, h1, ht, hm, fun m h2 =>
    ⟨Nat.lt_of_lt_of_le (ho m h2).1 hlen, fun e he => (ho m h2).2 e (step_get_back h (ho m h2).1 he)⟩⟩
  cases CStep.of h with
  | none _ => exact other hj
  | task cl0 t ts a' new hi ht0 e =>
    by_cases hij : i = j
    · subst hij
      rw [hj] at hi; cases hi
      rw [ht] at ht0; cases ht0
    · exact other (by rw [Conf.after, List.getElem?_set_ne hij]; exact hj)
  | pc cl0 a' n hi ht0 e =>
    by_cases hij : i = j
    · subst hij
      rw [hj] at hi; cases hi
      have hl : i < c.calls.length := (List.getElem?_eq_some_iff.1 hj).1
      obtain ⟨h6, h7, h8⟩ := makes_step (.of e) hm
      refine ⟨_, by simp only [Conf.after, List.getElem?_set_self hl]; rfl, h6, h7, fun m hmo => ?_⟩
      simp only [List.mem_append, List.mem_range'_1] at hmo
      refine ⟨?_, fun e he => ?_⟩
      · rcases hmo with hmo | hmo
        · exact Nat.lt_of_lt_of_le (ho m hmo).1 hlen
        · simp only [Conf.after, List.length_append, List.length_map]; omega
      · rcases after_get he with h9 | ⟨_, h9⟩
        · rcases hmo with hmo | hmo
          · exact (ho m hmo).2 e h9
          · exact absurd (c.get_lt h9) (by omega)
        · exact h8 e h9
    · exact other (by rw [Conf.after, List.getElem?_set_ne hij]; exact hj)

theorem Made.run {j : Nat} {H : Handle} (M : Made c1 j H) {tr : List (Conf α × Nat)} (run : Run P c1 tr c2) : Made c2 j H := by
  induction run with
  | refl => exact M
  | step r i e ih => exact ih.step e
  | @start c1 c2 tr r op hp e ih =>
    obtain ⟨cl, hj, ht, hm, ho⟩ := ih.call
    refine ⟨cl, start_calls_old e hj, ht, hm, fun m h2 => ⟨Nat.lt_of_lt_of_le (ho m h2).1 (start_len (.of e)), fun en he => ?_⟩⟩
    obtain ⟨e2, h6, h7⟩ := start_get_back e (ho m h2).1 he
    rw [← h7]; exact (ho m h2).2 e2 h6
  | write r k en j x hk hw e ih =>
    rcases Conf.write_cases e with rfl | ⟨b, i0, rfl⟩
    · exact ih
    · exact ⟨ih.call⟩

theorem Made.out {j : Nat} {H : Handle} (M : Made c j H) {cl : Call α} (hcl : c.calls[j]? = some cl) {m : Nat} (hm : m ∈ cl.out) {e : Ent}
    (he : c.get m = some e) : e.h = H := by
  obtain ⟨cl', hj, _, _, ho⟩ := M.call
  rw [hcl] at hj; cases hj
  exact (ho m hm).2 e he

end Arc

/-- C45: `get_mut` returns `None` and gives the slice back as it was if some other handle
that shows one of its items at the beginning of the call is still held at the end. Other
threads do what they want meanwhile, except that no `WeakSlice` is upgraded while `into_mut`
is running. -/
theorem C45_get_mut (hP : Tame P) (h : Conf.Reach P zst c) {k k' b i : Nat} (h1 : c.Shows k b i) (h2 : c.Shows k' b i)
    (hne : k' ≠ k) (hp : P c (.getMut k)) (hs : c.start (.getMut k) = some c1) {tr : List (Conf α × Nat)}
    (run : Run P c1 tr c2) (hk' : c2.get k' ≠ none) {cl : Call α} (hcl : c2.calls[c.calls.length]? = some cl)
    (hf : cl.fin = true) :
    cl.pc = .done .none ∧ ∃ x, c.get k = some x ∧ ∀ m ∈ cl.out, ∀ e, c2.get m = some e → e.h = x.h := by
  obtain ⟨d, g, hk, e1⟩ := start_getMut hs
  obtain ⟨h3, h4⟩ := refused hP h h1 h2 hne hp hs (im := false) hk e1 (fun l _ => ⟨rfl, rfl, rfl⟩) run hk' hcl hf
  exact ⟨h3, _, hk, h4⟩

/-- C45: the same of `into_mut`, which returns `Err` with the slice. -/
theorem C45_into_mut (hP : Tame P) (h : Conf.Reach P zst c) {k k' b i : Nat} (h1 : c.Shows k b i) (h2 : c.Shows k' b i)
    (hne : k' ≠ k) (hp : P c (.intoMut k)) (hs : c.start (.intoMut k) = some c1) {tr : List (Conf α × Nat)}
    (run : Run P c1 tr c2) (hk' : c2.get k' ≠ none) {cl : Call α} (hcl : c2.calls[c.calls.length]? = some cl)
    (hf : cl.fin = true) :
    cl.pc = .done .err ∧ ∃ x, c.get k = some x ∧ ∀ m ∈ cl.out, ∀ e, c2.get m = some e → e.h = x.h := by
  obtain ⟨d, g, hk, e1⟩ := start_intoMut hs
  obtain ⟨h3, h4⟩ := refused hP h h1 h2 hne hp hs (im := true) hk e1 (fun l hl => ⟨rfl, rfl, rfl, hl⟩) run hk' hcl hf
  exact ⟨h3, _, hk, h4⟩

/-- C45: `get_mut` returns `None` if a `WeakSlice` to the same data and guard exists from the
beginning to the end of the call. This holds of all programs. -/
theorem C45_get_mut_weak (h : Conf.Reach P zst c) {k w d g : Nat} {m : Bool} (hk : c.get k = some ⟨.strong d g, false⟩)
    (hw : c.get w = some ⟨.weak (some d) (some g), m⟩) (hp : P c (.getMut k)) (hs : c.start (.getMut k) = some c1)
    {tr : List (Conf α × Nat)} (run : Run P c1 tr c2) (hw' : c2.get w ≠ none) {cl : Call α}
    (hcl : c2.calls[c.calls.length]? = some cl) (hf : cl.fin = true) :
    cl.pc = .done .none ∧ ∀ m ∈ cl.out, ∀ e, c2.get m = some e → e.h = .strong d g := by
  have hr : Conf.Reach P zst c1 := .start h _ hp hs
  obtain ⟨d1, g1, hk1, e1⟩ := start_getMut hs
  rw [hk] at hk1; cases hk1
  have hl := c.get_lt hw
  have hl1 : w < c1.hs.length := Nat.lt_of_lt_of_le hl (start_len (.of hs))
  have hne : k ≠ w := by rintro rfl; rw [hk] at hw; cases hw
  obtain ⟨e, he⟩ := Option.ne_none_iff_exists'.1 hw'
  obtain ⟨e2, he2, hh⟩ := get_back run hl1 he
  have he3 : c.get w = some e2 := by
    rw [e1] at he2
    simpa [Conf.get, Conf.taking, List.getElem?_set, hne] using he2
  rw [hw] at he3; cases he3
  obtain ⟨eh, eb⟩ := e
  obtain rfl : .weak (some d) (some g) = eh := hh
  have R : c1.RF c.calls.length w (.weak (some d) (some g)) d g 0 false := by
    rw [e1]; exact RF_taking hl ⟨rfl, rfl, rfl⟩
  exact RF_end (refused_weak_run hr R run) he hcl hf

/-- Such a `WeakSlice` is what `downgrade` returns. -/
theorem C45_downgrade {k : Nat} {d g : Nat} {m : Bool} (hk : c.get k = some ⟨.strong d g, m⟩) (hs : c.start (.downgrade k) = some c1)
    {tr : List (Conf α × Nat)} (run : Run P c1 tr c2) {cl : Call α} (hcl : c2.calls[c.calls.length]? = some cl)
    {w : Nat} (hw : w ∈ cl.out) {e : Ent} (he : c2.get w = some e) : e.h = .weak (some d) (some g) := by
  refine Made.out (Made.run ?_ run) hcl hw he
  simp only [Conf.start, hk] at hs
  split at hs <;> cases hs
  rename_i heq; cases heq
  exact ⟨_, List.getElem?_concat_length, rfl, rfl, fun m h => by cases h⟩

/-- `clone` of an `ArcSlice` or of a `WeakSlice` returns a handle to the same data and guard. -/
theorem C45_clone {k : Nat} {x : Ent} (hk : c.get k = some x) (hs : c.start (.clone k) = some c1)
    {tr : List (Conf α × Nat)} (run : Run P c1 tr c2) {cl : Call α} (hcl : c2.calls[c.calls.length]? = some cl)
    {w : Nat} (hw : w ∈ cl.out) {e : Ent} (he : c2.get w = some e) : e.h = x.h := by
  refine Made.out (Made.run ?_ run) hcl hw he
  simp only [Conf.start, hk] at hs
  split at hs <;> cases hs <;> rename_i heq <;> cases heq
  all_goals exact ⟨_, List.getElem?_concat_length, rfl, rfl, fun m h => by cases h⟩

/-- `get_mut` gives the handle back as it was, whether or not it is refused. -/
theorem C45_get_mut_handle {k : Nat} {x : Ent} (hk : c.get k = some x) (hs : c.start (.getMut k) = some c1)
    {tr : List (Conf α × Nat)} (run : Run P c1 tr c2) {cl : Call α} (hcl : c2.calls[c.calls.length]? = some cl)
    {w : Nat} (hw : w ∈ cl.out) {e : Ent} (he : c2.get w = some e) : e.h = x.h := by
  refine Made.out (Made.run ?_ run) hcl hw he
  obtain ⟨d, g, hk1, rfl⟩ := start_getMut hs
  rw [hk] at hk1; cases hk1
  exact ⟨_, List.getElem?_concat_length, rfl, rfl, fun m h => by cases h⟩

/-! ### Cases -/

namespace Arc

/-- `let a = ArcSlice::new(vec![1, 2]); let l = ArcSlice::clone_left(&a); let w =
ArcSlice::downgrade(&l);` -/
def held : Conf Nat :=
  after [.op (.new [1, 2]), .run 0 8, .op (.cloneSide .L 0), .run 1 16, .op (.downgrade 1), .run 2 3]

theorem held_reach : Conf.Reach (fun c (op : Op Nat) => c.careful op = true) false held :=
  execIf_reach (as := [.op (.new [1, 2]), .run 0 8, .op (.cloneSide .L 0), .run 1 16, .op (.downgrade 1), .run 2 3]) .init rfl

/-- Where a schedule leads from `held`. -/
def heldThen (as : List (Act Nat)) : Conf Nat :=
  match exec held as with
  | some (.ok c) => c
  | _ => held

theorem careful_tame : Tame (fun c (op : Op Nat) => c.careful op = true) := fun _ _ _ _ h => h

end Arc

/-- `get_mut(&mut a)` while another thread clones `l` and drops the clone: refused because of
`l`. -/
example : ∃ (c1 c2 : Conf Nat) (tr : _) (cl : Call Nat), held.Shows 0 0 0 ∧ held.Shows 1 0 0 ∧ held.start (.getMut 0) = some c1 ∧
    Run (fun c op => c.careful op = true) c1 tr c2 ∧ c2.get 1 ≠ none ∧ c2.calls[held.calls.length]? = some cl ∧
    cl.fin = true ∧ cl.pc = .done .none ∧ cl.out = [4] := by
  obtain ⟨tr, r⟩ := Run.steps (P := fun c (op : Op Nat) => c.careful op = true) (i := 3) (n := 2) (.refl (heldThen [.op (.getMut 0)]))
    (c2 := heldThen [.op (.getMut 0), .run 3 2]) rfl
  obtain ⟨tr, r⟩ := Run.steps (i := 4) (n := 3) (.start r (.clone 1) rfl rfl)
    (c2 := heldThen [.op (.getMut 0), .run 3 2, .op (.clone 1), .run 4 3]) rfl
  obtain ⟨tr, r⟩ := Run.steps (i := 3) (n := 9) r
    (c2 := heldThen [.op (.getMut 0), .run 3 2, .op (.clone 1), .run 4 3, .run 3 9]) rfl
  exact ⟨_, _, tr, _, ⟨⟨.strong 1 0, false⟩, 0, 2, rfl, rfl, by decide, by decide⟩,
    ⟨⟨.strong 2 1, false⟩, 0, 1, rfl, rfl, by decide, by decide⟩, rfl, r, (by intro h; cases h), rfl, rfl, rfl, rfl⟩

/-- `into_mut(l)` while `a` is held: refused because of `a`. -/
example : ∃ (c1 c2 : Conf Nat) (tr : _) (cl : Call Nat), held.start (.intoMut 1) = some c1 ∧
    Run (fun c op => c.careful op = true) c1 tr c2 ∧ c2.get 0 ≠ none ∧ c2.calls[held.calls.length]? = some cl ∧
    cl.fin = true ∧ cl.pc = .done .err ∧ cl.out = [3] := by
  obtain ⟨tr, r⟩ := Run.steps (P := fun c (op : Op Nat) => c.careful op = true) (i := 3) (n := 9) (.refl (heldThen [.op (.intoMut 1)]))
    (c2 := heldThen [.op (.intoMut 1), .run 3 9]) rfl
  exact ⟨_, _, tr, _, rfl, r, (by intro h; cases h), rfl, rfl, rfl, rfl⟩

/-- `get_mut(&mut l)` while `w` exists: refused because of `w` already (and also because of
`a`). -/
example : ∃ (c1 c2 : Conf Nat) (tr : _) (cl : Call Nat), held.get 1 = some ⟨.strong 2 1, false⟩ ∧
    held.get 2 = some ⟨.weak (some 2) (some 1), false⟩ ∧ held.start (.getMut 1) = some c1 ∧
    Run (fun c op => c.careful op = true) c1 tr c2 ∧ c2.get 2 ≠ none ∧ c2.calls[held.calls.length]? = some cl ∧
    cl.fin = true ∧ cl.pc = .done .none ∧ cl.out = [3] := by
  obtain ⟨tr, r⟩ := Run.steps (P := fun c (op : Op Nat) => c.careful op = true) (i := 3) (n := 9) (.refl (heldThen [.op (.getMut 1)]))
    (c2 := heldThen [.op (.getMut 1), .run 3 9]) rfl
  exact ⟨_, _, tr, _, rfl, rfl, rfl, r, (by intro h; cases h), rfl, rfl, rfl, rfl⟩

end Verif
