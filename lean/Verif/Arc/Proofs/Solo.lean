import Verif.Arc.Proofs.SeqRel
import Verif.Arc.Proofs.Bounds
import Verif.Arc.Solo
import Verif.Props.ArcGate
/-!
# Calls that are left undisturbed
-/

namespace Verif.Arc
open Verif.Spec (Side Slot Family Rng End)
open Verif.Rc
variable {α : Type} {P : Rules α} {zst : Bool} {c c1 c2 : Conf α} {i : Nat}

/-- Call `i` is at a program point, with these drops pending. -/
def Conf.At (c : Conf α) (i : Nat) (pc : Pc α) (ts : List ATask) : Prop := ∃ cl, c.calls[i]? = some cl ∧ cl.pc = pc ∧ cl.tasks = ts

/-- Call `i` has made `n` steps. -/
structure Went (P : Rules α) (zst : Bool) (c : Conf α) (i n : Nat) (c' : Conf α) : Prop where
  run : steps c i n = .ok c'
  ok : Conf.PReach P zst c'

theorem Went.trans {n m : Nat} (h1 : Went P zst c i n c1) (h2 : Went P zst c1 i m c2) : Went P zst c i (n + m) c2 :=
  ⟨(steps_add h1.run).trans h2.run, h2.ok⟩

theorem solo_pc (hP : PTame P) (h : Conf.PReach P zst c) {pc : Pc α} (ha : c.At i pc []) :
    ∃ c' a' n, Went P zst c i 1 c' ∧ PStep c.a pc a' n ∧ c'.a = a' ∧ c'.At i n.pc n.tasks := by
  obtain ⟨cl, hi, rfl, ht⟩ := ha
  obtain ⟨c', e, _⟩ := (h.IA' hP).step (i := i)
  refine ⟨c', ?_⟩
  have w : Went P zst c i 1 c' := ⟨by rw [steps_ok e]; rfl, .run h i e⟩
  have hl := (List.getElem?_eq_some_iff.1 hi).1
  cases CStep.of e with
  | none hn => rw [hi] at hn; cases hn
  | task cl1 t ts a' new hi1 ht1 e1 => rw [hi] at hi1; cases hi1; rw [ht] at ht1; cases ht1
  | pc cl1 a' n hi1 _ e1 =>
    rw [hi] at hi1; cases hi1
    exact ⟨a', n, w, PStep.of e1, rfl, _, List.getElem?_set_self hl, rfl, rfl⟩

theorem solo_drop (hP : PTame P) (h : Conf.PReach P zst c) {pc : Pc α} {p : Nat} {ts : List ATask} (ha : c.At i pc (.base (.dropS p) :: ts)) (hp : 2 ≤ c.a.b.strong p) :
    ∃ c', Went P zst c i 1 c' ∧ c'.At i pc ts ∧ c'.a.b.sk = c.a.b.sk ∧ c'.a.box = c.a.box ∧ c'.a.b.strong = upd c.a.b.strong p (c.a.b.strong p - 1) := by
  obtain ⟨cl, hi, rfl, ht⟩ := ha
  obtain ⟨c', e, _⟩ := (h.IA' hP).step (i := i)
  refine ⟨c', ⟨by rw [steps_ok e]; rfl, .run h i e⟩, ?_⟩
  have hl := (List.getElem?_eq_some_iff.1 hi).1
  cases CStep.of e with
  | none hn => rw [hi] at hn; cases hn
  | pc cl1 a' n hi1 ht1 e1 => rw [hi] at hi1; cases hi1; rw [ht] at ht1; cases ht1
  | task cl1 t ts1 a' new hi1 ht1 e1 =>
    rw [hi] at hi1; cases hi1
    rw [ht] at ht1; cases ht1
    obtain ⟨⟨h', ts'⟩, e2, e3⟩ := bind_ok e1
    cases pure_ok e3
    simp only [taskStep, dropStrong] at e2
    rw [if_neg (by omega), if_pos (by omega)] at e2
    cases e2
    exact ⟨⟨_, List.getElem?_set_self hl, rfl, rfl⟩, rfl, rfl, rfl⟩

/-- `guard`, undisturbed, makes at most 6 steps for each ancestor, and 4. -/
theorem solo_guard (hP : PTame P) : ∀ (k : Nat) {c : Conf α} {x y : Nat} {fs : List GFrame}, Conf.PReach P zst c → c.At i (.gLoad x fs y) [] →
    (c.a.b.sk.lab x).path.length ≤ k →
    ∃ n c' g, n ≤ 6 * k + 4 ∧ Went P zst c i n c' ∧ c'.At i (.gRet g fs y) [] ∧ c'.a.b.sk = c.a.b.sk ∧ c'.a.b.strong = c.a.b.strong ∧
      ∀ z, (c.a.b.sk.lab x).path.length < (c.a.b.sk.lab z).path.length → c'.a.box z = c.a.box z := by
  intro k
  induction k using Nat.strongRecOn with
  | ind k ih =>
  intro c x y fs h ha hk
  have hz : ∀ z, (c.a.b.sk.lab x).path.length < (c.a.b.sk.lab z).path.length → z ≠ x := fun z hz e => by subst e; omega
  obtain ⟨c1, a1, n1, w1, s1, e1, ha1⟩ := solo_pc hP h ha
  cases s1 with
  | gLoad _ _ _ v hd =>
  obtain ⟨c2, a2, n2, w2, s2, e2, ha2⟩ := solo_pc hP w1.ok ha1
  rw [e1] at s2
  cases s2 with
  | gTryOk _ _ _ _ _ g hb hg =>
    exact ⟨2, c2, g, by omega, w1.trans w2, ha2, by rw [e2], by rw [e2], fun z _ => by rw [e2]⟩
  | gTryNo _ _ _ _ _ hb =>
  obtain ⟨c3, a3, n3, w3, s3, e3, ha3⟩ := solo_pc hP w2.ok ha2
  have w123 := (w1.trans w2).trans w3
  rw [e2] at s3
  cases s3 with
  | gParNo _ _ _ _ v hd hp =>
    obtain ⟨c4, a4, n4, w4, s4, e4, ha4⟩ := solo_pc hP w3.ok ha3
    rw [e3] at s4
    cases s4 with
    | gCasLost _ _ _ _ _ _ _ hb => exact absurd rfl hb
    | gCasWin _ _ _ _ _ _ _ hb =>
      exact ⟨4, c4, _, by omega, w123.trans w4, ha4, by rw [e4]; rfl, by rw [e4]; rfl, fun z hz' => by rw [e4]; exact upd_ne _ _ (hz z hz')⟩
  | gParUp _ _ _ _ v p h1 hd hp hs e =>
    obtain ⟨hs0, rfl⟩ := incS_some e
    obtain ⟨_, _, _, s, hl⟩ := (h.BI hP).par.par _ _ hp
    have hl : (c.a.b.sk.lab x).path.length = (c.a.b.sk.lab p).path.length + 1 := by rw [hl]; simp [Lab.child]
    have k3 : c3.a.b.sk = c.a.b.sk := by rw [e3]; rfl
    have t3 : c3.a.b.strong = upd c.a.b.strong p (c.a.b.strong p + 1) := by rw [e3]; rfl
    have b3 : c3.a.box = c.a.box := by rw [e3]; rfl
    obtain ⟨n, c4, g, hn, w4, ha4, k4, t4, b4⟩ := ih (k - 1) (by omega) w3.ok ha3 (by rw [k3]; omega)
    obtain ⟨c5, a5, n5, w5, s5, e5, ha5⟩ := solo_pc hP w4.ok ha4
    cases s5 with
    | gRet1 =>
    have t5 : c5.a.b.strong = upd c.a.b.strong p (c.a.b.strong p + 1) := by rw [e5, t4, t3]
    obtain ⟨c6, w6, ha6, k6, b6, t6⟩ := solo_drop hP w5.ok ha5 (by rw [t5, upd_same]; omega)
    obtain ⟨c7, a7, n7, w7, s7, e7, ha7⟩ := solo_pc hP w6.ok ha6
    have bx : ∀ z, (c.a.b.sk.lab p).path.length < (c.a.b.sk.lab z).path.length → c6.a.box z = c.a.box z := fun z hz' => by
      rw [b6, e5, b4 z (by rw [k3]; exact hz'), b3]
    cases s7 with
    | gCasLost _ _ _ _ _ _ _ hb => exact absurd (bx x (by omega)) hb
    | gCasWin _ _ _ _ _ _ _ hb =>
      refine ⟨_, c7, _, ?_, (((w123.trans w4).trans w5).trans w6).trans w7, ha7, ?_, ?_, fun z hz' => ?_⟩
      · omega
      · rw [e7]; show c6.a.b.sk = _; rw [k6, e5, k4, k3]
      · rw [e7]; show c6.a.b.strong = _; rw [t6, t5]
        funext z
        by_cases hzp : z = p
        · subst hzp; rw [upd_same, upd_same]; omega
        · rw [upd_ne _ _ hzp, upd_ne _ _ hzp]
      · rw [e7]
        show upd c6.a.box x _ z = _
        rw [upd_ne _ _ (hz z hz')]
        exact bx z (by omega)

/-- The last step. -/
theorem solo_ret (hP : PTame P) {k : Nat} (h : Conf.PReach P zst c) {x : Nat} (ha : c.At i (.gLoad x [] x) []) (hk : (c.a.b.sk.lab x).path.length ≤ k) :
    ∃ n c', n ≤ 6 * k + 5 ∧ Went P zst c i n c' ∧ c'.At i (.done .handle) [] := by
  obtain ⟨n, c1, g, hn, w1, ha1, _⟩ := solo_guard hP k h ha hk
  obtain ⟨c2, a2, n2, w2, s2, e2, ha2⟩ := solo_pc hP w1.ok ha1
  cases s2 with
  | gRet0 => exact ⟨n + 1, c2, by omega, w1.trans w2, ha2⟩

theorem solo_side (hP : PTame P) {d g : Nat} {s : Side} (h : Conf.PReach P zst c) (ha : c.At i (.wait d g s) [])
    (hg : ∀ cl ∈ c.calls, cl.cloneLatch ≠ some g) :
    ∃ n c', n ≤ 6 * (c.a.b.sk.lab d).path.length + 15 ∧ Went P zst c i n c' ∧ c'.At i (.done .handle) [] := by
  obtain ⟨c1, a1, n1, w1, s1, e1, ha1⟩ := solo_pc hP h ha
  cases s1 with
  | waitC _ _ _ v hv hc =>
    obtain ⟨cl, h1, h2⟩ := (gate_closed_iff (h.BI hP).gi hv).1.1 hc
    exact absurd h2 (hg cl h1)
  | waitO _ _ _ v hv hc =>
  obtain ⟨c2, a2, n2, w2, s2, e2, ha2⟩ := solo_pc hP w1.ok ha1
  rw [e1] at s2
  cases s2 with
  | csSame _ _ v h' hd hs e =>
    obtain ⟨_, rfl⟩ := incS_some e
    obtain ⟨n, c3, hn, w3, ha3⟩ := solo_ret hP (k := (c.a.b.sk.lab d).path.length) w2.ok ha2 (by rw [e2]; exact Nat.le_refl _)
    exact ⟨_, c3, by omega, (w1.trans w2).trans w3, ha3⟩
  | csKid _ _ v x hd hs hk =>
    obtain ⟨c3, a3, n3, w3, s3, e3, ha3⟩ := solo_pc hP w2.ok ha2
    have hl := ((h.BI hP).heap.good.shape.toDShape.dataKid d v s x (getData_some hd) hk).2.1
    rw [e2] at s3
    cases s3 with
    | csInc _ h' e =>
    obtain ⟨_, rfl⟩ := incS_some e
    obtain ⟨n, c4, hn, w4, ha4⟩ := solo_ret hP (k := (c.a.b.sk.lab d).path.length + 1) w3.ok ha3 (by
      rw [e3]; show (c.a.b.sk.lab x).path.length ≤ _; rw [hl]; simp [Lab.child])
    exact ⟨_, c4, by omega, ((w1.trans w2).trans w3).trans w4, ha4⟩
  | csNo _ _ v hd hs hk =>
    obtain ⟨c3, a3, n3, w3, s3, e3, ha3⟩ := solo_pc hP w2.ok ha2
    rw [e2] at s3
    cases s3 with
    | csNew _ _ v' h' hd' e =>
    obtain ⟨c4, a4, n4, w4, s4, e4, ha4⟩ := solo_pc hP w3.ok ha3
    have k3 := incSOpt_sk e
    have hn := getData_some hd
    rw [← k3] at hn
    rw [e3] at s4
    cases s4 with
    | csLost _ _ _ v2 x hd2 hk2 =>
      have hn2 := getData_some hd2
      rw [show (c.a.withB h').b.sk = h'.sk from rfl, hn] at hn2
      cases hn2
      rw [hk] at hk2; cases hk2
    | csWin _ _ _ v2 h1 x h2 hd2 hk2 e5 e6 =>
      obtain ⟨_, rfl⟩ := incS_some e6
      obtain ⟨n, c5, hn, w5, ha5⟩ := solo_ret hP (k := (c.a.b.sk.lab d).path.length + 1) w4.ok ha4 (by
        rw [e4]
        cases e5
        show (upd h'.sk.lab h'.sk.next ((h'.sk.lab d).child s) h'.sk.next).path.length ≤ _
        rw [upd_same, k3]; simp [Lab.child])
      exact ⟨_, c5, by omega, (((w1.trans w2).trans w3).trans w4).trans w5, ha5⟩

theorem solo_down (hP : PTame P) {d g : Nat} (h : Conf.PReach P zst c) (ha : c.At i (.dg0 d g) [])
    (hg : ∀ cl ∈ c.calls, cl.downLatch ≠ some g) : ∃ c', Went P zst c i 2 c' ∧ c'.At i (.done .handle) [] := by
  obtain ⟨c1, a1, n1, w1, s1, e1, ha1⟩ := solo_pc hP h ha
  cases s1 with
  | dg0C _ _ v hv hc =>
    obtain ⟨cl, h1, h2⟩ := (gate_closed_iff (h.BI hP).gi hv).2.1 hc
    exact absurd h2 (hg cl h1)
  | dg0O _ _ v hv hc =>
  obtain ⟨c2, a2, n2, w2, s2, e2, ha2⟩ := solo_pc hP w1.ok ha1
  cases s2 with
  | dg1 => exact ⟨c2, w1.trans w2, ha2⟩

theorem solo_up (hP : PTame P) {o : Option Nat} (h : Conf.PReach P zst c) (ha : c.At i (.up o) []) :
    ∃ n c', n ≤ (match o with | some d => 6 * (c.a.b.sk.lab d).path.length + 6 | none => 6) ∧ Went P zst c i n c' ∧
      ∃ r, c'.At i (.done r) [] ∧ r = match o with | some d => if c.a.b.strong d = 0 then .none else .handle | none => .none := by
  obtain ⟨c1, a1, n1, w1, s1, e1, ha1⟩ := solo_pc hP h ha
  cases s1 with
  | upN => exact ⟨1, c1, by show 1 ≤ 6; omega, w1, _, ha1, rfl⟩
  | upNo d hs => exact ⟨1, c1, by show _ ≤ _ + 6; omega, w1, _, ha1, (if_pos hs).symm⟩
  | up d h' hs e =>
    obtain ⟨_, rfl⟩ := incS_some e
    obtain ⟨n, c2, hn, w2, ha2⟩ := solo_ret hP (k := (c.a.b.sk.lab d).path.length) w1.ok ha1 (by rw [e1]; exact Nat.le_refl _)
    exact ⟨_, c2, by show _ ≤ _ + 6; omega, w1.trans w2, _, ha2, (if_neg hs).symm⟩

end Verif.Arc
