import Verif.Arc.Weak
import Verif.Arc.Proofs.Unwind
import Verif.Arc.Proofs.Race2
/-!
# The ledger of weak counters
-/

set_option linter.unusedSimpArgs false

namespace Verif.Arc
open Verif.Spec (Side Slot Family Rng End)
open Verif.Rc
variable {α : Type}

/-! ## References from nodes: one for all `Arc`s of a node, and those of children to their parents -/

def hpW (node : Nat → Option Node) (par : Nat → Option Nat) (n y : Nat) : Nat :=
  (if (node y).isSome then 1 else 0) + prefs (fun z => (node z).map fun _ => ⟨par z, false, false⟩) n y

theorem toList_count (o : Option Nat) (y : Nat) : o.toList.count y = if o = some y then 1 else 0 := by
  cases o with
  | none => rfl
  | some x =>
    by_cases h : x = y
    · subst h; simp
    · simp [h]

theorem hpW_kill {node : Nat → Option Node} {par : Nat → Option Nat} {n x : Nat} (hx : x < n) (hn : (node x).isSome = true) (y : Nat) :
    hpW (upd node x none) par n y + (x :: (par x).toList).count y = hpW node par n y := by
  obtain ⟨v, hv⟩ := Option.isSome_iff_exists.1 hn
  have hf : (fun z => (upd node x none z).map fun _ => (⟨par z, false, false⟩ : GuardV)) =
      upd (fun z => (node z).map fun _ => ⟨par z, false, false⟩) x none := by
    funext z
    by_cases hz : z = x
    · subst hz; simp [upd_same]
    · simp [upd_ne _ _ hz]
  have h1 := prefs_upd (f := fun z => (node z).map fun _ => (⟨par z, false, false⟩ : GuardV)) hx none y
  simp only [hv, Option.map_some, Option.any_some, Option.any_none, Bool.false_eq_true, if_false] at h1
  have hl : (if (upd node x none y).isSome then 1 else 0) + (if x = y then 1 else 0) = if (node y).isSome then 1 else 0 := by
    by_cases hy : y = x
    · subst hy; simp [upd_same, hv]
    · simp [upd_ne _ _ hy, show ¬ x = y from fun h => hy h.symm]
  simp only [hpW, hf, List.count_cons, toList_count, beq_iff_eq] at h1 hl ⊢
  omega

theorem hpW_new {node : Nat → Option Node} {par par' : Nat → Option Nat} {n : Nat} {v : Node} (hn : node n = none)
    (hp : ∀ z, z < n → par' z = par z) (y : Nat) :
    hpW (upd node n (some v)) par' (n + 1) y = hpW node par n y + (if y = n then 1 else 0) + (par' n).toList.count y := by
  have h1 : prefs (fun z => (upd node n (some v) z).map fun _ => (⟨par' z, false, false⟩ : GuardV)) n y =
      prefs (fun z => (node z).map fun _ => ⟨par z, false, false⟩) n y := by
    refine prefs_congr fun z hz => ?_
    rw [upd_ne _ _ (by omega), hp z hz]
  have hl : (if (upd node n (some v) y).isSome then 1 else 0) = (if (node y).isSome then 1 else 0) + (if y = n then 1 else 0) := by
    by_cases hy : y = n
    · subst hy; simp [upd_same, hn]
    · simp [upd_ne _ _ hy, hy]
  simp only [hpW, prefs_succ, h1, hl, upd_same, Option.map_some, Option.any_some, toList_count, beq_iff_eq]
  omega

theorem hpW_some {node node' : Nat → Option Node} {par : Nat → Option Nat} {n : Nat} (h : ∀ z, (node' z).isSome = (node z).isSome) (y : Nat) :
    hpW node' par n y = hpW node par n y := by
  have h1 : prefs (fun z => (node' z).map fun _ => (⟨par z, false, false⟩ : GuardV)) n y =
      prefs (fun z => (node z).map fun _ => ⟨par z, false, false⟩) n y := by
    refine prefs_congr fun z _ => ?_
    have := h z
    cases h1 : node' z <;> cases h2 : node z <;> simp_all
  simp only [hpW, h1, h]

def heapW (a : Arena α) (y : Nat) : Nat := hpW a.b.sk.node a.par a.b.sk.next y

theorem heapW_congr {a a' : Arena α} (h1 : a'.b.sk = a.b.sk) (h2 : a'.par = a.par) (y : Nat) : heapW a' y = heapW a y := by
  simp only [heapW, h1, h2]

/-- Allocated in this step. -/
def newW (a a' : Arena α) (y : Nat) : Nat := if a.b.sk.next ≤ y ∧ y < a'.b.sk.next then 1 else 0

theorem newW_none {a a' : Arena α} (h : a'.b.sk.next = a.b.sk.next) (y : Nat) : newW a a' y = 0 := by
  simp only [newW, h]; split <;> omega

/-! ## References of handles and calls -/

def entW (e : Ent) : List Nat :=
  match e.h with
  | .weak d _ => d.toList
  | _ => []

def slotW : Option Ent → List Nat
  | some e => entW e
  | none => []

def pcHold (a : Arena α) (on : Option Nat) : Pc α → List Nat
  | .csCas d _ _ => [d]
  | .csLose c _ => (a.par c).toList
  | .wd _ => on.toList
  | _ => []

def callHold (a : Arena α) (cl : Call α) : List Nat := pcHold a cl.on cl.pc

/-- All references that somebody has and that have not been given up. -/
def Conf.led (c : Conf α) (y : Nat) : Nat :=
  heapW c.a y + (c.hs.flatMap slotW).count y + (c.calls.flatMap (callHold c.a)).count y

/-! ## Steps -/

theorem dropStrong_led {h h' : Heap α} {T : List AT} {par : Nat → Option Nat} {x : Nat} {ts : List Task} (I : HInv h T) (e : dropStrong h x = .ok (h', ts)) (y : Nat) :
    h'.sk.next = h.sk.next ∧
    hpW h'.sk.node par h'.sk.next y + (if h.strong x = 1 then x :: (par x).toList else []).count y = hpW h.sk.node par h.sk.next y := by
  simp only [dropStrong] at e
  split at e
  · cases e
  · split at e
    · next h1 =>
      cases e
      rw [if_neg h1]; exact ⟨rfl, rfl⟩
    · next h1 =>
      have h1 : h.strong x = 1 := by omega
      rw [if_pos h1]
      have hx : x < h.sk.next := by
        obtain ⟨n, hn⟩ := I.good.ledger.node_of_pos (x := x) (by omega)
        rcases Nat.lt_or_ge x h.sk.next with h | h
        · exact h
        · rw [I.good.ledger.fresh x h] at hn; cases hn
      cases hn : h.sk.node x with
      | none => rw [hn] at e; cases e
      | some n =>
        have hk := hpW_kill (node := h.sk.node) (par := par) hx (by rw [hn]; rfl) y
        rw [hn] at e
        rcases I.only x n hn with h2 | h2
        · cases n with
          | data v => simp only at e; cases e; exact ⟨rfl, hk⟩
          | _ => cases h2
        · cases n with
          | alloc b =>
            simp only at e
            split at e
            · cases e; exact ⟨rfl, hk⟩
            · split at e
              · cases e; exact ⟨rfl, hk⟩
              · cases e
          | _ => cases h2

theorem task_led {a a' : Arena α} {T : List AT} {t : ATask} {ts : List ATask} (I : HInv a.b T) (ht : aplain t)
    (e : ataskStep a t = .ok (a', ts)) (y : Nat) : a'.b.sk.next = a.b.sk.next ∧ a'.par = a.par ∧
    heapW a' y + (ataskBlocks a t).out.count y = heapW a y + (ataskBlocks a t).inc.count y := by
  cases t with
  | base t =>
    obtain ⟨⟨h', ts'⟩, e1, e2⟩ := bind_ok e
    cases pure_ok e2
    cases t with
    | dropS x =>
      obtain ⟨h1, h2⟩ := dropStrong_led (par := a.par) I e1 y
      exact ⟨h1, rfl, h2⟩
    | userCode => cases e1; exact ⟨rfl, rfl, rfl⟩
    | dropRcSlice d i => cases ht
    | dropReg r =>
      simp only [taskStep] at e1
      split at e1
      · cases e1; exact ⟨rfl, rfl, rfl⟩
      · split at e1
        · cases e1
        · split at e1 <;> cases e1
          exact ⟨rfl, rfl, rfl⟩
  | slice d g =>
    obtain ⟨⟨h', ts'⟩, e1, e2⟩ := bind_ok e
    cases pure_ok e2
    obtain ⟨h1, h2⟩ := dropStrong_led (par := a.par) I e1 y
    exact ⟨h1, rfl, h2⟩
  | guard g =>
    simp only [ataskStep, Arena.dropG] at e
    split at e
    · cases e
    · split at e
      · cases e; exact ⟨rfl, rfl, rfl⟩
      · split at e <;> cases e
        exact ⟨rfl, rfl, rfl⟩

theorem root_led {a a1 : Arena α} {r : Reg} {d : Nat} (hf : a.b.sk.node a.b.sk.next = none) (e : a.root r = (a1, d)) (y : Nat) :
    heapW a1 y = heapW a y + (if y = a.b.sk.next then 1 else 0) ∧ a1.b.sk.next = a.b.sk.next + 1 ∧
    ∀ z, z < a.b.sk.next → a1.par z = a.par z := by
  cases e
  refine ⟨?_, rfl, fun z hz => upd_ne _ _ (by show z ≠ a.b.sk.next; omega)⟩
  have := hpW_new (node := a.b.sk.node) (par := a.par) (par' := upd a.par a.b.sk.next none) (v := .data ⟨r.buf, r.off, r.len, r.alloc, noKids⟩)
    hf (fun z hz => upd_ne _ _ (by omega)) y
  rw [upd_same] at this
  exact this

theorem regSplit_same {h h' : Heap α} {r new rest : Reg} {s : Side} (e : regSplitOff h r s = .ok (h', new, rest)) : h'.sk = h.sk := by
  simp only [regSplitOff] at e
  obtain ⟨h1, e1, e2⟩ := bind_ok e
  cases pure_ok e2
  exact (incSOpt_same e1).1

theorem iterNext_sk {h h' : Heap α} {r r' : Reg} {en : End} {oo : Option α} {ts : List Task} (e : iterNext h r en = .ok (h', oo, r', ts)) :
    h'.sk = h.sk := by
  rcases (iterNext_same e).2 with rfl | ⟨_, _, _, rfl⟩ <;> rfl

/-- Only the two sets of references of the call change. -/
theorem led_same' {a a' : Arena α} (h1 : a'.b.sk = a.b.sk) (h2 : a'.par = a.par) {p q r s : Nat} (h : p + r = q + s) (y : Nat) :
    heapW a' y + p + r = heapW a y + q + s + newW a a' y := by
  rw [heapW_congr h1 h2, newW_none (by rw [h1])]; omega

theorem led_same {a a' : Arena α} (h1 : a'.b.sk = a.b.sk) (h2 : a'.par = a.par) {p q r s : Nat} (h : p = q) (y : Nat) (hr : r = s) :
    heapW a' y + p + r = heapW a y + q + s + newW a a' y := by
  rw [heapW_congr h1 h2, newW_none (by rw [h1])]; omega

theorem pc_led {a a' : Arena α} {T : List AT} {bh : Option Handle} {pc : Pc α} {n : Next α} (I : HInv a.b T) (P : ParOK a)
    (hp : pcOK a bh pc) (e : PStep a pc a' n) (on : Option Nat) (y : Nat) :
    heapW a' y + ((n.push.flatMap entW).count y + (pcHold a' on n.pc).count y) + (pcBlocks a on pc).out.count y =
      heapW a y + (pcHold a on pc).count y + (pcBlocks a on pc).inc.count y + newW a a' y := by
  have B := I.base
  have noPar : ∀ z, a.b.sk.next ≤ z → a.par z = none := fun z hz => by
    cases h : a.par z with
    | none => rfl
    | some p => have := (P.par z p h).1; omega
  have kill : ∀ x v, a.b.sk.node x = some (.data v) → a.b.strong x = 1 →
      heapW (a.withB (a.b.kill x)) y + (lastOut a x).count y = heapW a y := fun x v hx h1 => by
    have hlt : x < a.b.sk.next := by
      rcases Nat.lt_or_ge x a.b.sk.next with h | h
      · exact h
      · rw [B.fresh x h] at hx; cases hx
    have := hpW_kill (node := a.b.sk.node) (par := a.par) hlt (by rw [hx]; rfl) y
    rw [lastOut, if_pos h1]; exact this
  have alc : ∀ (h h1 : Heap α) (b al : Nat), h.sk.next = a.b.sk.next → h.sk.node = a.b.sk.node → h.rcNew (.alloc b) ⟨0, []⟩ = (h1, al) →
      h1.sk.next = a.b.sk.next + 1 ∧ h1.sk.node (a.b.sk.next + 1) = none ∧
      heapW (a.withB h1) y = heapW a y + (if y = a.b.sk.next then 1 else 0) := by
    intro h h1 b al hn hnd eh
    cases eh
    refine ⟨by show h.sk.next + 1 = _; rw [hn], ?_, ?_⟩
    · show upd h.sk.node h.sk.next _ _ = none
      rw [upd_ne _ _ (by omega), hnd]; exact B.fresh _ (by omega)
    · have := hpW_new (node := a.b.sk.node) (par := a.par) (par' := a.par) (v := .alloc b) (B.fresh _ (Nat.le_refl _)) (fun z hz => rfl) y
      rw [noPar _ (Nat.le_refl _)] at this
      rw [← hn, ← hnd] at this
      show hpW (upd h.sk.node h.sk.next _) a.par (h.sk.next + 1) y = _
      rw [this, hn, hnd]; rfl
  have root : ∀ {r : Reg} {a0 a1 : Arena α} {d k : Nat}, a0.b.sk.node a0.b.sk.next = none → a0.root r = (a1, d) → a0.b.sk.next = a.b.sk.next + k →
      heapW a0 y = heapW a y + newW a a0 y →
      heapW a1 y + ((([] : List Ent).flatMap entW).count y + (pcHold a1 on (.gLoad d [] d : Pc α)).count y) + ([] : List Nat).count y =
        heapW a y + ([] : List Nat).count y + ([] : List Nat).count y + newW a a1 y := by
    intro r a0 a1 d k h1 h2 h3 h4
    obtain ⟨h5, h6, _⟩ := root_led h1 h2 y
    simp only [List.flatMap_nil, List.count_nil, pcHold, h5, h4, newW, h6, h3]
    split <;> split <;> split <;> omega
  have sm : ∀ (h : Heap α), h.sk = a.b.sk → ∀ {p q r s : Nat}, p = q → r = s → heapW (a.withB h) y + p + r = heapW a y + q + s + newW a (a.withB h) y :=
    fun h hh _ _ _ _ hp hr => led_same (a := a) (a' := a.withB h) hh rfl hp y hr
  cases e
  case new0 xs hl r d hr e => exact root (k := 0) (a0 := a.withB (newBuf a.b xs).1) (B.fresh _ (Nat.le_refl _)) e rfl (by rw [newW_none (a := a) (a' := a.withB (newBuf a.b xs).1) rfl]; rfl)
  case new1 xs hl r h1 al d eh hr e =>
    obtain ⟨h2, h3, h4⟩ := alc (newBuf a.b xs).1 _ _ _ rfl rfl eh
    refine root (k := 1) (a0 := a.withB h1) (by show h1.sk.node h1.sk.next = none; rw [show h1.sk.next = _ from h2]; exact h3) e h2 ?_
    rw [h4]
    simp only [newW, show (a.withB h1).b.sk.next = a.b.sk.next + 1 from h2]
    split <;> split <;> omega
  case mutNew xs h r e =>
    simp only [mutFromBox] at e
    split at e
    · cases e
      exact led_same (a' := a.withB (newBuf a.b xs).1) (q := 0) (s := 0) rfl rfl (by simp [entW, pcHold]) y rfl
    · cases e
      obtain ⟨h2, h3, h4⟩ := alc (newBuf a.b xs).1 ((newBuf a.b xs).1.rcNew (.alloc (newBuf a.b xs).2) ⟨0, []⟩).1 (newBuf a.b xs).2 _ rfl rfl rfl
      rw [h4]
      simp only [newW, show (a.withB ((newBuf a.b xs).1.rcNew (.alloc (newBuf a.b xs).2) ⟨0, []⟩).1).b.sk.next = a.b.sk.next + 1 from h2, List.flatMap_cons, List.flatMap_nil, entW, pcHold, pcBlocks, List.append_nil,
        List.count_nil]
      split <;> split <;> omega
  case immut r d e => exact root (k := 0) (B.fresh _ (Nat.le_refl _)) e rfl (by rw [newW_none (a := a) rfl]; rfl)
  case split s r h new rest e => exact sm _ (regSplit_same e) (by simp [entW, pcHold]) rfl
  case nxt e => exact sm _ (iterNext_sk e) (by simp [entW, pcHold]) rfl
  case cutF e => exact sm _ (iterSplit_same e).1 (by simp [entW, pcHold]) rfl
  case cutB e => exact sm _ (iterSplit_same e).1 (by simp [entW, pcHold]) rfl
  case cl1 e => exact sm _ (incS_same e).1 (by simp [entW, pcHold]) rfl
  case csSame e => exact sm _ (incS_same e).1 (by simp [entW, pcHold]) rfl
  case csInc e => exact sm _ (incS_same e).1 (by simp [entW, pcHold]) rfl
  case gParUp e => exact sm _ (incS_same e).1 (by simp [entW, pcHold]) rfl
  case up e => exact sm _ (incS_same e).1 (by simp [entW, pcHold]) rfl
  case csNew d s v h hd e =>
    have h1 := heapW_congr (a := a) (a' := a.withB h) (incSOpt_same e).1 rfl y
    have h2 := newW_none (a := a) (a' := a.withB h) (by show h.sk.next = _; rw [(incSOpt_same e).1]) y
    simp only [h1, h2, pcHold, pcBlocks, List.flatMap_nil, List.count_nil]
    omega
  case csLose c r h e =>
    have h1 := heapW_congr (a := a) (a' := a.withB h) (incS_same e).1 rfl y
    have h2 := newW_none (a := a) (a' := a.withB h) (by show h.sk.next = _; rw [(incS_same e).1]) y
    simp only [h1, h2, pcHold, pcBlocks, List.flatMap_nil, List.count_nil]
    omega
  case csLost d s r v c hd hk =>
    have := P.kid d v s c (getData_some hd) hk
    simp only [newW_none rfl, pcHold, pcBlocks, this, Option.toList_some, List.flatMap_nil, List.count_nil]
    omega
  case csWin d s r v h1 c h2 hd hk e1 e2 =>
    have hd' := getData_some hd
    have hlt : d < a.b.sk.next := by
      rcases Nat.lt_or_ge d a.b.sk.next with h | h
      · exact h
      · rw [B.fresh d h] at hd'; cases hd'
    cases e1
    obtain ⟨_, rfl⟩ := incS_some e2
    have h3 := hpW_new (node := a.b.sk.node) (par := a.par) (par' := upd a.par a.b.sk.next (some d))
      (v := .data ⟨r.buf, r.off, r.len, r.alloc, noKids⟩) (B.fresh _ (Nat.le_refl _)) (fun z hz => upd_ne _ _ (by omega)) y
    rw [upd_same] at h3
    have h4 := hpW_some (node := upd a.b.sk.node a.b.sk.next (some (.data ⟨r.buf, r.off, r.len, r.alloc, noKids⟩)))
      (node' := upd (upd a.b.sk.node a.b.sk.next (some (.data ⟨r.buf, r.off, r.len, r.alloc, noKids⟩))) d (some (.data (v.setKid s a.b.sk.next))))
      (par := upd a.par a.b.sk.next (some d)) (n := a.b.sk.next + 1) (fun z => by
        by_cases hz : z = d
        · subst hz
          rw [upd_same, upd_ne _ _ (by omega), hd']; rfl
        · rw [upd_ne _ _ hz]) y
    rw [h3] at h4
    simp only [heapW, newW, pcHold, pcBlocks, List.flatMap_nil, List.count_nil, Nat.zero_add, Nat.add_zero]
    refine (Eq.trans h4 ?_)
    show _ = hpW a.b.sk.node a.par a.b.sk.next y + _ + (if a.b.sk.next ≤ y ∧ y < a.b.sk.next + 1 then 1 else 0)
    simp only [Option.toList_some]
    split <;> split <;> omega
  case im2 d g v hd hc =>
    have := kill d v (getData_some hd) hc
    rw [newW_none (a := a) (a' := a.withB (a.b.kill d)) rfl]
    simp only [pcHold, pcBlocks, List.flatMap_nil, List.count_nil]
    omega
  case imKid c todo g r acc v hd hc =>
    have := kill c v (getData_some hd) hc
    rw [newW_none (a := a) (a' := a.withB (a.b.kill c)) rfl]
    simp only [pcHold, pcBlocks, List.flatMap_nil, List.count_nil]
    omega
  case im2No hc => exact led_same rfl rfl (by simp [entW, pcHold]) y (by simp [pcBlocks, lastOut, hc])
  case imKidNo hc => exact led_same rfl rfl (by simp [entW, pcHold]) y (by simp [pcBlocks, lastOut, hc])
  case dg1 => refine led_same' ?_ ?_ ?_ y <;> first | rfl | simp [entW, pcHold, pcBlocks]
  case wcN => rw [newW_none rfl]; simp [entW, pcHold, pcBlocks]
  case wc => refine led_same' ?_ ?_ ?_ y <;> first | rfl | simp [entW, pcHold, pcBlocks]
  case wdN => rw [newW_none rfl]; simp [pcHold, pcBlocks]
  case wd => refine led_same' ?_ ?_ ?_ y <;> first | rfl | simp [entW, pcHold, pcBlocks]
  all_goals exact led_same rfl rfl (by simp [entW, pcHold]) y rfl

end Verif.Arc
