import Verif.Rc.Proofs.WorldInv
/-!
# What a call leaves alone
-/

namespace Verif.Spec.World
variable {α : Type} {umax : Nat} {w : World α}

theorem act_fams (umax : Nat) (w : World α) (op : Op α) : ∃ l, (w.act umax op).1.fams = w.fams ++ l := by
  cases op <;> simp only [act] <;> (repeat' split) <;>
    first
    | exact ⟨[_], rfl⟩
    | exact ⟨[], (List.append_nil _).symm⟩

theorem act_zst (umax : Nat) (w : World α) (op : Op α) : (w.act umax op).1.zst = w.zst := by
  cases op <;> simp only [act] <;> (repeat' split) <;> rfl

theorem act_nbuf (umax : Nat) (w : World α) (op : Op α) : w.nbuf ≤ (w.act umax op).1.nbuf := by
  cases op <;> simp only [act] <;> (repeat' split) <;> simp [put, push, del, store, newBuf, newFam]

theorem act_mem (umax : Nat) (w : World α) (op : Op α) {b : Nat} (hb : b ≠ w.nbuf) : (w.act umax op).1.mem b = w.mem b := by
  cases op <;> simp only [act] <;> (repeat' split) <;> simp [put, push, del, store, newBuf, newFam, hb]

theorem act_len (umax : Nat) (w : World α) (op : Op α) : w.hs.length ≤ (w.act umax op).1.hs.length := by
  cases op <;> simp only [act] <;> (repeat' split) <;> simp [put, push, del, store, newBuf, newFam]

theorem act_get (umax : Nat) (w : World α) (op : Op α) {k : Nat} {y : Hand} (hk : w.get k = some y) (ho : op.on ≠ some k) :
    (w.act umax op).1.get k = some y := by
  have hlt := get_lt hk
  simp only [get] at hk ⊢
  cases op <;> simp only [Op.on, ne_eq, Option.some.injEq] at ho <;> simp only [act] <;> (repeat' split) <;>
    simp only [put, push, del, store, newBuf, newFam] <;>
    first
    | exact hk
    | (rw [List.getElem?_append_left (by simpa using hlt)]; first | exact hk | (rw [List.getElem?_set_ne ho]; exact hk))
    | (rw [List.getElem?_set_ne ho]; exact hk)

/-- Handle `k` covers the item, and no other handle does. -/
def Only (w : World α) (k b i : Nat) : Prop :=
  ∃ y, w.get k = some y ∧ w.covers b i y = true ∧ ∀ k' y', k' ≠ k → w.get k' = some y' → w.covers b i y' = false

theorem Wf.only (W : w.Wf) {k b i : Nat} {y : Hand} (hk : w.get k = some y) (hc : w.covers b i y = true)
    (h : ∀ f p, y = .shared f p → ¬ w.OtherStrong k f p) : w.Only k b i := by
  refine ⟨y, hk, hc, fun k' y' hne hk' => ?_⟩
  rw [← Bool.not_eq_true]; intro hc'
  obtain ⟨f, p, p', rfl, rfl, hr⟩ := W.disj hk hk' (Ne.symm hne) hc hc'
  exact h f p rfl ⟨k', p', hne, hk', hr⟩

theorem _root_.Verif.Spec.Rng.has_add {r : Rng} {j : Nat} (h : j < r.len) : r.has (r.off + j) = true := by
  simp [Rng.has]; omega

/-- What a call does to an item. -/
inductive Touch (w : World α) (op : Op α) (r : World α × Obs α) (b i : Nat) : Prop
  | same : r.1.items b i = w.items b i → Touch w op r b i
  | fresh : b = w.nbuf → (r.1.items b i = .absent ∨ ∃ a, r.1.items b i = .live a) → Touch w op r b i
  | write (k : Nat) (a a' : α) : (∃ j, op = .getMut k j a ∨ op = .write k j a) → r.2 = .done →
      w.items b i = .live a' → r.1.items b i = .live a → r.1.hs = w.hs → w.Only k b i → Touch w op r b i
  | move (e : End) (k : Nat) (a : α) : op = .next e k → r.2 = .item a → w.items b i = .live a → r.1.items b i = .moved →
      w.Only k b i → Touch w op r b i

theorem store_items (w : World α) (b i : Nat) (x : Slot α) (b' i' : Nat) :
    (w.store b i x).items b' i' = if b' = b ∧ i' = i then x else w.items b' i' := rfl

theorem Touch.newBuf (w : World α) (op : Op α) (xs : List α) {r : World α × Obs α} (h : r.1.items = (w.newBuf xs).items) (b i : Nat) :
    Touch w op r b i := by
  by_cases e : b = w.nbuf
  · refine .fresh e ?_
    rw [h]; simp only [World.newBuf, e, if_true]
    cases xs[i]? with
    | none => exact .inl rfl
    | some a => exact .inr ⟨a, rfl⟩
  · refine .same ?_
    rw [h]; simp only [World.newBuf, e, if_false]

theorem act_touch (umax : Nat) (W : w.Wf) (op : Op α) (b i : Nat) : Touch w op (w.act umax op) b i := by
  cases op with
  | rcNew xs =>
    simp only [act]; split
    · exact .newBuf w _ xs rfl b i
    · exact .same rfl
  | mutNew xs =>
    simp only [act]; split
    · exact .newBuf w _ xs rfl b i
    · exact .same rfl
  | clone k =>
    simp only [act]; split
    · exact .same rfl
    · exact .same rfl
    · exact .same rfl
    · exact .newBuf w _ _ rfl b i
    · exact .same rfl
  | getMut k j a =>
    simp only [act]; split
    · next f p hk =>
      split
      · exact .same rfl
      · next hc =>
        split
        · next hj =>
          by_cases e : b = (w.fam f).buf ∧ i = (w.rangeOf f p).off + j
          · obtain ⟨rfl, rfl⟩ := e
            have hcov : w.covers (w.fam f).buf ((w.rangeOf f p).off + j) (.shared f p) = true := by
              simp [covers, Rng.has_add hj]
            obtain ⟨a', ha'⟩ := W.live hk hcov
            refine .write k a a' ⟨j, .inl rfl⟩ rfl ha' (by simp only [store_items, and_self, if_true]) rfl (W.only hk hcov ?_)
            rintro f' p' e; cases e
            rw [← otherStrong_iff]
            simp only [Bool.or_eq_true, not_or] at hc
            exact hc.1
          · exact .same (by simp only [store_items, e, if_false])
        · exact .same rfl
    · exact .same rfl
  | write k j a =>
    simp only [act]; split
    · exact .same rfl
    · next x hx hk =>
      split
      · exact .same rfl
      · next b' r hv =>
        split
        · next hj =>
          by_cases e : b = b' ∧ i = r.off + j
          · obtain ⟨rfl, rfl⟩ := e
            have hcov : w.covers b (r.off + j) x = true := by rw [W.view hk hv]; exact Rng.has_add hj
            obtain ⟨a', ha'⟩ := W.live hk hcov
            refine .write k a a' ⟨j, .inr rfl⟩ rfl ha' (by simp only [store_items, and_self, if_true]) rfl (W.only hk hcov ?_)
            rintro f' p' rfl; exact absurd rfl (hx _ _)
          · exact .same (by simp only [store_items, e, if_false])
        · exact .same rfl
    · exact .same rfl
  | next e k =>
    simp only [act]; split
    · next b' r h hk =>
      split
      · exact .same rfl
      · next hl =>
        cases e with
        | front =>
          simp only
          split
          · next a ha =>
            by_cases e : b = b' ∧ i = r.off
            · obtain ⟨rfl, rfl⟩ := e
              have hcov : w.covers b r.off (.iter b r h) = true := by simp [covers, Rng.has]; omega
              refine .move .front k a rfl rfl ha (by simp only [put, store_items, and_self, if_true]) (W.only hk hcov ?_)
              rintro f' p' e; cases e
            · exact .same (by simp only [put, store_items, e, if_false])
          · exact .same rfl
        | back =>
          simp only
          split
          · next a ha =>
            by_cases e : b = b' ∧ i = r.off + r.len - 1
            · obtain ⟨rfl, rfl⟩ := e
              have hcov : w.covers b (r.off + r.len - 1) (.iter b r h) = true := by simp [covers, Rng.has]; omega
              refine .move .back k a rfl rfl ha (by simp only [put, store_items, and_self, if_true]) (W.only hk hcov ?_)
              rintro f' p' e; cases e
            · exact .same (by simp only [put, store_items, e, if_false])
          · exact .same rfl
    · exact .same rfl
  | _ => refine .same ?_; simp only [act] <;> (repeat' split) <;> rfl

/-! ## Ranges do not move -/

theorem fam_append {w w' : World α} {l : List Family} (h : w'.fams = w.fams ++ l) {f : Nat} (hf : f < w.fams.length) :
    w'.fam f = w.fam f := by
  simp only [fam, List.getD, h]; rw [List.getElem?_append_left hf]

/-- The family of a handle exists. -/
def FamOk (w : World α) : Hand → Prop
  | .shared f _ => f < w.fams.length
  | .weak f _ => f < w.fams.length
  | _ => True

theorem Wf.famOk (W : w.Wf) {k : Nat} {x : Hand} (hk : w.get k = some x) : w.FamOk x := by
  cases x with
  | shared f p => exact W.fam (.inl hk)
  | weak f p => exact W.fam (.inr hk)
  | _ => trivial

section
variable {w' : World α} {l : List Family} (h : w'.fams = w.fams ++ l) {x : Hand} (hx : w.FamOk x)
include h hx

theorem covers_same (b i : Nat) : w'.covers b i x = w.covers b i x := by
  cases x with
  | shared f p => simp only [covers, rangeOf, fam_append h hx]
  | _ => rfl

theorem keeps_same (b : Nat) : w'.keeps b x = w.keeps b x := by
  cases x with
  | shared f p =>
    have e1 := fam_append h hx
    have e2 : w'.rangeOf f p = w.rangeOf f p := by simp only [rangeOf, e1]
    simp only [keeps, holdsOf]; rw [e2, e1]
  | _ => rfl

theorem view_same : w'.view x = w.view x := by
  cases x with
  | shared f p => simp only [view, rangeOf, fam_append h hx]
  | _ => rfl

end

/-! ## Whole calls -/

theorem settle_covers (w : World α) (b i : Nat) : w.settle.covers b i = w.covers b i := rfl
theorem settle_keeps (w : World α) (b : Nat) : w.settle.keeps b = w.keeps b := rfl
theorem settle_get (w : World α) (k : Nat) : w.settle.get k = w.get k := rfl

theorem call_get (umax : Nat) (op : Op α) {k : Nat} {y : Hand} (hk : w.get k = some y) (ho : op.on ≠ some k) :
    (w.call umax op).1.get k = some y := act_get umax w op hk ho

theorem call_fams (umax : Nat) (w : World α) (op : Op α) : ∃ l, (w.call umax op).1.fams = w.fams ++ l := act_fams umax w op

theorem settle_live (w : World α) {b i : Nat} {k : Nat} {x : Hand} (hk : w.get k = some x) (hc : w.covers b i x = true) :
    w.settle.items b i = w.items b i := by
  have : w.anyHand (w.covers b i) = true := anyHand_iff.2 ⟨k, x, hk, hc⟩
  simp only [settle, this, if_true]
  split
  · next h => exact h.symm
  · rfl

/-- A call on another handle. -/
theorem call_frame (umax : Nat) (W : w.Wf) (op : Op α) {k : Nat} {y : Hand} (hk : w.get k = some y) (ho : op.on ≠ some k)
    {b i : Nat} (hc : w.covers b i y = true) : (w.call umax op).1.items b i = w.items b i := by
  obtain ⟨l, hl⟩ := act_fams umax w op
  have hk' := act_get umax w op hk ho
  have hc' : (w.act umax op).1.covers b i y = true := by rw [covers_same hl (W.famOk hk)]; exact hc
  have e : (w.call umax op).1.items b i = (w.act umax op).1.items b i := settle_live _ hk' hc'
  rw [e]
  obtain ⟨a, ha⟩ := W.live hk hc
  have hon : ∀ k', w.Only k' b i → k' = k := by
    rintro k' ⟨y', h1, h2, h3⟩
    by_cases e : k' = k
    · exact e
    · have := h3 k y (Ne.symm e) hk
      rw [hc] at this; cases this
  cases act_touch umax W op b i with
  | same h => exact h
  | fresh h _ => rw [W.fresh b i (by omega)] at ha; cases ha
  | write k' a a' h1 h2 h3 h4 h5 h6 =>
    exfalso
    have := hon k' h6; subst this
    obtain ⟨j, rfl | rfl⟩ := h1 <;> exact ho rfl
  | move e k' a h1 h2 h3 h4 h5 =>
    exfalso
    have := hon k' h5; subst this
    subst h1; exact ho rfl

/-- What happens to an item in a call. -/
theorem call_items (umax : Nat) (W : w.Wf) (op : Op α) (b i : Nat) :
    Touch w op (w.call umax op) b i ∨ ((w.call umax op).1.items b i = .dropped ∧ ¬ (w.call umax op).1.Covered b i) := by
  by_cases hd : (w.call umax op).1.items b i = (w.act umax op).1.items b i
  · refine .inl ?_
    cases act_touch umax W op b i with
    | same h => exact .same (hd.trans h)
    | fresh h h' => exact .fresh h (by rw [hd]; exact h')
    | write k' a a' h1 h2 h3 h4 h5 h6 => exact .write k' a a' h1 h2 h3 (hd.trans h4) h5 h6
    | move e k' a h1 h2 h3 h4 h5 => exact .move e k' a h1 h2 h3 (hd.trans h4) h5
  · refine .inr ?_
    have e : (w.call umax op).1.items b i = (w.act umax op).1.settle.items b i := rfl
    rw [e] at hd ⊢
    simp only [settle] at hd ⊢
    split at hd
    · split at hd
      · next h _ => exact absurd h.symm hd
      · next h1 h2 =>
        rw [if_neg h2]
        refine ⟨rfl, fun h => h2 ?_⟩
        obtain ⟨k, x, h3, h4⟩ := h
        exact anyHand_iff.2 ⟨k, x, h3, h4⟩
    · exact absurd rfl hd

end Verif.Spec.World

namespace Verif.Spec.World
variable {α : Type} {umax : Nat} {w : World α}

/-- Dropped or moved items stay so. -/
theorem call_dead (umax : Nat) (W : w.Wf) (op : Op α) {b i : Nat} (h : w.items b i = .dropped ∨ w.items b i = .moved) :
    (w.call umax op).1.items b i = w.items b i := by
  have ha : (w.act umax op).1.items b i = w.items b i := by
    cases act_touch umax W op b i with
    | same h => exact h
    | fresh e _ => rw [W.fresh b i (by omega)] at h; rcases h with h | h <;> cases h
    | write k' a a' h1 h2 h3 h4 h5 h6 => rw [h3] at h; rcases h with h | h <;> cases h
    | move e k' a h1 h2 h3 h4 h5 => rw [h3] at h; rcases h with h | h <;> cases h
  have e : (w.call umax op).1.items b i = (w.act umax op).1.settle.items b i := rfl
  rw [e]
  simp only [settle]
  split
  · next h1 => rw [ha] at h1; rw [h1] at h; rcases h with h | h <;> cases h
  · exact ha

/-- The memory of a buffer is allocated only when it is made. -/
theorem call_mem (umax : Nat) (op : Op α) {b : Nat} (hb : b < w.nbuf) (h : w.mem b = false) : (w.call umax op).1.mem b = false := by
  have e : (w.call umax op).1.mem b = ((w.act umax op).1.mem b && (w.act umax op).1.anyHand ((w.act umax op).1.keeps b)) := rfl
  rw [e, act_mem umax w op (by omega), h]; rfl

theorem call_nbuf (umax : Nat) (w : World α) (op : Op α) : w.nbuf ≤ (w.call umax op).1.nbuf := act_nbuf umax w op

end Verif.Spec.World
