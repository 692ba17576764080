import Verif.Arc.Proofs.Race2
/-!
# Slices that a call is about to hand out

A call that returns a slice knows it: it was given the slice itself, has borrowed it or a
slice it is part of, or has just made it.
-/

namespace Verif.Arc
open Verif.Spec (Side Slot Family Rng End)
open Verif.Rc
variable {α : Type}

/-- The slice data through which a handle reads; through which it might, if `w` is set, in case of a `WeakSlice`. -/
def srcH (w : Bool) : Handle → Option Nat
  | .strong d _ => some d
  | .weak d _ => if w then d else none
  | .uniq _ => none

/-- The slice data a call is going to hand out. -/
def keyP : Pc α → List Nat
  | .cl2 d _ => [d]
  | .gLoad _ _ y | .gTry _ _ _ _ y | .gPar _ _ _ y | .gCas _ _ _ _ y | .gRet _ _ y => [y]
  | .gm0 d _ | .gm1 d _ | .gm2 d _ | .gm3 d _ | .gm4 d _ | .gmOpenC d _ _ | .gmOpenD d _ _ => [d]
  | .im0 d _ | .im1 d _ | .im2 d _ | .imOpen d _ => [d]
  | _ => []

theorem keyP_ref {pc : Pc α} {y : Nat} (h : y ∈ keyP pc) : .ref y ∈ pcT pc := by
  cases pc <;> simp_all [keyP, pcT]

/-- Slice data that covers an item. -/
def Cov (k : Skel) (d b i : Nat) : Prop := ∃ v, k.node d = some (.data v) ∧ 0 < v.span.num b i

section
variable {a a' : Arena α}

theorem num_pos {g : Span} {b i : Nat} : 0 < g.num b i ↔ g.buf = b ∧ g.off ≤ i ∧ i < g.off + g.len := by
  unfold Span.num; split <;> simp_all

theorem sub_le (v : DataV) (s : Side) (b i : Nat) : (v.sub s).num b i ≤ v.span.num b i := by
  have := v.num_halves b i
  cases s <;> omega

theorem Cov.kid {T : List AT} {h : Heap α} (I : HInv h T) {d c b i : Nat} {v : DataV} {s : Side} (hd : h.sk.node d = some (.data v))
    (hc : v.kids s = some c) (hv : Cov h.sk c b i) : Cov h.sk d b i := by
  obtain ⟨w, hw, hn⟩ := hv
  have S := I.good.shape
  obtain ⟨h1, h2, vc, h3⟩ := S.dataKid d v s c hd hc
  rw [hw] at h3; cases h3
  have e1 := ((S.vok hd).kid S.toAShape (h2 ▸ S.vok hw)).1
  rw [e1] at hn
  exact ⟨v, hd, Nat.lt_of_lt_of_le hn (sub_le v s b i)⟩

theorem Cov.sk {k k' : Skel} (h : k' = k) {d b i : Nat} (hc : Cov k' d b i) : Cov k d b i := h ▸ hc

/-- Slice data that is not new covers what it did. -/
theorem Cov.evo {k k' : Skel} (e : Evo k k') {d b i : Nat} (hd : d < k.next) (hk : k.kind d = .data) (S : Shape k) (h : Cov k' d b i) : Cov k d b i := by
  obtain ⟨w, hw, hn⟩ := h
  cases hl : k.node d with
  | none => rw [e.dead d hd hl] at hw; cases hw
  | some n =>
    have := S.kinds d n hl
    rw [hk] at this
    obtain ⟨v, rfl⟩ := data_of_kind this.symm
    obtain ⟨v', h1, h2, h3, h4, _⟩ := e.data d v _ hl hw
    cases h1
    exact ⟨v, hl, by simpa only [DataV.span, h2, h3, h4] using hn⟩

theorem key_pc {w : Bool} {pc : Pc α} {n : Next α} {bh : Option Handle} {T : List AT} (I : HInv a.b (pcT pc ++ T)) (hp : pcOK a bh pc)
    (hu : w = true ∨ ∀ d, pc ≠ .up d) (P : PStep a pc a' n) {y b i : Nat} (hy : y ∈ keyP n.pc ∨ ∃ en ∈ n.push, srcH w en.h = some y)
    (hc : Cov a'.b.sk y b i) : a.b.sk.nbuf ≤ b ∨ 0 < owners (aG (pcT pc)) b i ∨ y ∈ keyP pc ∨
      ∃ h d, bh = some h ∧ srcH w h = some d ∧ Cov a.b.sk d b i := by
  have B := I.base
  have bor : ∀ d g, bh = some (.strong d g) → Cov a.b.sk d b i → ∃ h d, bh = some h ∧ srcH w h = some d ∧ Cov a.b.sk d b i :=
    fun d g h1 h2 => ⟨_, d, h1, rfl, h2⟩
  have kid : ∀ c, KidOf a bh c → Cov a.b.sk c b i → ∃ h d, bh = some h ∧ srcH w h = some d ∧ Cov a.b.sk d b i := by
    rintro c ⟨d, g, s, v, h1, h2, h3⟩ h4
    exact bor d g h1 (h4.kid I h2 h3)
  cases P with
  | new0 xs hl r a1 d hr e =>
    obtain ⟨rfl, h2, h3, h4⟩ := root_eq' e
    simp only [keyP, List.mem_singleton, List.not_mem_nil, false_and, exists_false, or_false] at hy
    subst hy
    obtain ⟨w, hw, hn⟩ := hc
    rw [h2, upd_same] at hw; cases hw
    subst hr
    left; rw [← (num_pos.1 hn).1]; exact Nat.le_refl _
  | new1 xs hl r h1 al a1 d eh hr e =>
    obtain ⟨rfl, h2, h3, h4⟩ := root_eq' e
    simp only [keyP, List.mem_singleton, List.not_mem_nil, false_and, exists_false, or_false] at hy
    subst hy
    obtain ⟨w, hw, hn⟩ := hc
    rw [h2, upd_same] at hw; cases hw
    subst hr
    left; rw [← (num_pos.1 hn).1]; exact Nat.le_refl _
  | immut r a1 d e =>
    obtain ⟨rfl, h2, h3, h4⟩ := root_eq' e
    simp only [keyP, List.mem_singleton, List.not_mem_nil, false_and, exists_false, or_false] at hy
    subst hy
    obtain ⟨w, hw, hn⟩ := hc
    rw [h2, upd_same] at hw; cases hw
    right; left
    simpa [pcT, Reg.span, DataV.span] using hn
  | cl1 d g h e =>
    simp only [keyP, List.mem_singleton, List.not_mem_nil, false_and, exists_false, or_false] at hy
    subst hy
    exact .inr (.inr (.inr (bor y g hp (hc.sk (incS_same e).1))))
  | csSame d s v h hd hs e =>
    simp only [keyP, List.mem_singleton, List.not_mem_nil, false_and, exists_false, or_false] at hy
    subst hy
    obtain ⟨g, hp⟩ := hp
    exact .inr (.inr (.inr (bor y g hp (hc.sk (incS_same e).1))))
  | csInc c h e =>
    simp only [keyP, List.mem_singleton, List.not_mem_nil, false_and, exists_false, or_false] at hy
    subst hy
    exact .inr (.inr (.inr (kid y hp (hc.sk (incS_same e).1))))
  | csLose c r h e =>
    simp only [keyP, List.mem_singleton, List.not_mem_nil, false_and, exists_false, or_false] at hy
    subst hy
    exact .inr (.inr (.inr (kid y hp (hc.sk (incS_same e).1))))
  | csWin d s r v h1 c h2 hd hk e1 e2 =>
    simp only [keyP, List.mem_singleton, List.not_mem_nil, false_and, exists_false, or_false] at hy
    subst hy
    obtain ⟨g, w, h3, h4, h5, h6⟩ := hp
    have hd := getData_some hd
    rw [hd] at h4; cases h4
    cases e1
    obtain ⟨_, rfl⟩ := incS_some e2
    have hlt := B.lt hd
    obtain ⟨u, hw, hn⟩ := hc
    replace hw : upd (upd a.b.sk.node a.b.sk.next (some (.data ⟨r.buf, r.off, r.len, r.alloc, noKids⟩))) d (some (.data (v.setKid s a.b.sk.next))) a.b.sk.next = some (.data u) := hw
    rw [upd_ne _ _ (by omega), upd_same] at hw; cases hw
    refine .inr (.inr (.inr (bor d g h3 ⟨v, hd, Nat.lt_of_lt_of_le hn ?_⟩)))
    rw [h6]
    exact sub_le v s b i
  | up d h hs e =>
    rcases hu with rfl | hu
    · simp only [keyP, List.mem_singleton, List.not_mem_nil, false_and, exists_false, or_false] at hy
      subst hy
      obtain ⟨g, hp⟩ := hp
      exact .inr (.inr (.inr ⟨_, y, hp, rfl, hc.sk (incS_same e).1⟩))
    · exact absurd rfl (hu _)
  | dg1 d g v hv =>
    simp only [keyP, List.not_mem_nil, List.mem_singleton, exists_eq_left, srcH, false_or] at hy
    split at hy
    · cases hy
      exact .inr (.inr (.inr (bor y g hp hc)))
    · cases hy
  | wcN d =>
    simp only [keyP, List.not_mem_nil, List.mem_singleton, exists_eq_left, false_or] at hy
    refine .inr (.inr (.inr ⟨_, y, hp, hy, hc⟩))
  | wc d g hg =>
    simp only [keyP, List.not_mem_nil, List.mem_singleton, exists_eq_left, false_or] at hy
    refine .inr (.inr (.inr ⟨_, y, hp, hy, hc⟩))
  | _ => exact .inr (.inr (.inl (by simp_all [keyP, srcH])))

end
end Verif.Arc
