import Verif.Arc.Proofs.Final
/-!
# Every call returns

A measure that every step of a call decreases, whatever the other calls do, unless the call
has returned or waits for a gate.
-/

namespace Verif.Arc
open Verif.Spec (Side Slot Family Rng End)
open Verif.Rc
variable {α : Type}

/-! ## How much is left to do in `DataGuard::guard` -/

/-- How many slices the slice data `x` has been split off from. -/
def dp (a : Arena α) (x : Nat) : Nat := (a.b.sk.lab x).path.length

/-- A bound on the cost of `guard` for data of depth `δ`, when there are `n` calls. -/
def cost (n : Nat) : Nat → Nat
  | 0 => 2 + (n * 3 + 2) + 1
  | δ + 1 => (2 + cost n δ) + (n * (2 + cost n δ + 1) + 2) + 1

/-- … from looking at the old guard to making a new one. -/
def eCost (n : Nat) : Nat → Nat
  | 0 => 2
  | δ + 1 => 2 + cost n δ

/-- … from making a new one, which may make `n` other calls start again. -/
def aCost (n δ : Nat) : Nat := n * (eCost n δ + 1) + 2

theorem cost_eq (n δ : Nat) : cost n δ = eCost n δ + aCost n δ + 1 := by
  cases δ <;> simp only [cost, eCost, aCost]

/-- The cost of replacing the box `b` that was found in `x`. -/
def fr (n : Nat) (a : Arena α) (x b : Nat) : Nat := aCost n (dp a x) + if a.box x = b then 0 else eCost n (dp a x) + 1

def frs (n : Nat) (a : Arena α) (fs : List GFrame) : Nat := (fs.map fun f => fr n a f.x f.b).sum

/-- The cost of a call. -/
def rho (n : Nat) (a : Arena α) : Pc α → Nat
  | .done _ => 0
  | .new _ | .immut _ => 1 + cost n 0
  | .mutNew _ | .split _ _ | .nxt _ _ | .cut _ _ _ | .cl2 _ _ | .dg1 _ _ | .wc _ _ | .wd _ => 1
  | .cl1 _ _ | .dg0 _ _ => 2
  | .wait d _ _ => 5 + cost n (dp a d + 1) + cost n (dp a d)
  | .cs d _ => 4 + cost n (dp a d + 1) + cost n (dp a d)
  | .csNew d _ => 3 + cost n (dp a d + 1)
  | .csCas d _ _ => 2 + cost n (dp a d + 1)
  | .csInc c | .csLose c _ => 1 + cost n (dp a c)
  | .gLoad x fs _ => cost n (dp a x) + frs n a fs
  | .gTry x b _ fs _ => eCost n (dp a x) + fr n a x b + frs n a fs
  | .gPar x b fs _ => eCost n (dp a x) - 1 + fr n a x b + frs n a fs
  | .gCas x b _ fs _ => fr n a x b + frs n a fs
  | .gRet _ fs _ => 1 + frs n a fs
  | .gm0 _ _ => 7 | .gm1 _ _ => 6 | .gm2 _ _ => 5 | .gm3 _ _ => 4 | .gm4 _ _ => 3 | .gmOpenC _ _ _ => 2 | .gmOpenD _ _ _ => 1
  | .im0 _ _ => 6 | .im1 _ _ => 5 | .im2 _ _ => 4 | .imOpen _ _ => 1 | .imFg _ _ _ _ => 3 | .imGate _ _ _ => 2 | .imOk _ _ => 1
  | .up none => 1
  | .up (some d) => 1 + cost n (dp a d)

/-- The data whose depth matters for the cost. -/
def ids : Pc α → List Nat
  | .wait d _ _ | .cs d _ | .csNew d _ | .csCas d _ _ | .csInc d | .csLose d _ | .up (some d) => [d]
  | .gLoad x fs _ | .gTry x _ _ fs _ | .gPar x _ fs _ | .gCas x _ _ fs _ => x :: fs.map (·.x)
  | .gRet _ fs _ => fs.map (·.x)
  | _ => []

section
variable {a a' : Arena α} {n : Nat}

theorem dp_evo (e : Evo a.b.sk a'.b.sk) {x : Nat} (hx : x < a.b.sk.next) : dp a' x = dp a x := by rw [dp, dp, e.lab x hx]

theorem fr_same {x b : Nat} (h : dp a' x = dp a x) (hb : a'.box x = a.box x) : fr n a' x b = fr n a x b := by simp only [fr, h, hb]

theorem frs_same {fs : List GFrame} (h : ∀ x ∈ fs.map (·.x), dp a' x = dp a x ∧ a'.box x = a.box x) : frs n a' fs = frs n a fs := by
  induction fs with
  | nil => rfl
  | cons f fs ih =>
    simp only [frs, List.map_cons, List.sum_cons] at ih ⊢
    rw [ih fun x hx => h x (by simp only [List.map_cons, List.mem_cons]; exact .inr hx),
      fr_same (h f.x (by simp)).1 (h f.x (by simp)).2]

/-- What does not touch the boxes does not change costs. -/
theorem rho_same {pc : Pc α} (h : ∀ x ∈ ids pc, dp a' x = dp a x ∧ a'.box x = a.box x) : rho n a' pc = rho n a pc := by
  cases pc
  case up d => cases d <;> simp_all [rho, ids]
  case gRet g fs y => simp only [rho]; rw [frs_same h]
  case gLoad x fs y =>
    simp only [rho, ids] at h ⊢
    rw [frs_same fun z hz => h z (List.mem_cons_of_mem _ hz), (h x (List.mem_cons_self ..)).1]
  case gTry x b p fs y =>
    simp only [rho, ids] at h ⊢
    have hx := h x (List.mem_cons_self ..)
    rw [frs_same fun z hz => h z (List.mem_cons_of_mem _ hz), hx.1, fr_same hx.1 hx.2]
  case gPar x b fs y =>
    simp only [rho, ids] at h ⊢
    have hx := h x (List.mem_cons_self ..)
    rw [frs_same fun z hz => h z (List.mem_cons_of_mem _ hz), hx.1, fr_same hx.1 hx.2]
  case gCas x b p fs y =>
    simp only [rho, ids] at h ⊢
    have hx := h x (List.mem_cons_self ..)
    rw [frs_same fun z hz => h z (List.mem_cons_of_mem _ hz), fr_same hx.1 hx.2]
  all_goals first | rfl | (simp only [ids, List.mem_singleton, forall_eq] at h; simp only [rho, h.1])

/-- A new box in `x` costs those that want to replace the old one. -/
theorem fr_box {x y b nb : Nat} (hd : ∀ z, dp a' z = dp a z) (hb : a'.box = upd a.box x nb) :
    fr n a' y b ≤ fr n a y b + if y = x then eCost n (dp a x) + 1 else 0 := by
  simp only [fr, hd, hb]
  by_cases h : y = x
  · subst h; simp only [if_true]
    by_cases h2 : upd a.box y nb y = b <;> by_cases h3 : a.box y = b <;> simp only [h2, h3, if_true, if_false] <;> omega
  · rw [upd_ne _ _ h]; simp [h]

theorem frs_box {x nb : Nat} {fs : List GFrame} (hd : ∀ z, dp a' z = dp a z) (hb : a'.box = upd a.box x nb) :
    frs n a' fs ≤ frs n a fs + (fs.map (·.x)).count x * (eCost n (dp a x) + 1) := by
  induction fs with
  | nil => simp [frs]
  | cons f fs ih =>
    have := fr_box (n := n) (y := f.x) (b := f.b) hd hb
    simp only [frs, List.map_cons, List.sum_cons, List.count_cons, beq_iff_eq] at ih ⊢
    by_cases h : f.x = x
    · simp only [h, if_true, Nat.add_mul] at this ⊢; omega
    · simp only [h, if_false, Nat.add_zero] at this ⊢; omega

theorem rho_box {x nb : Nat} {pc : Pc α} (hd : ∀ z, dp a' z = dp a z) (hb : a'.box = upd a.box x nb) (hc : (ids pc).count x ≤ 1) :
    rho n a' pc ≤ rho n a pc + (eCost n (dp a x) + 1) := by
  have key : ∀ (z b : Nat) (fs : List GFrame), (z :: fs.map (·.x)).count x ≤ 1 →
      fr n a' z b + frs n a' fs ≤ fr n a z b + frs n a fs + (eCost n (dp a x) + 1) := by
    intro z b fs hc
    have h1 := fr_box (n := n) (y := z) (b := b) hd hb
    have h2 := frs_box (n := n) (fs := fs) hd hb
    simp only [List.count_cons, beq_iff_eq] at hc
    by_cases h : z = x
    · simp only [h, if_true] at h1 hc ⊢
      have : (fs.map (·.x)).count x = 0 := by omega
      rw [this] at h2; omega
    · simp only [h, if_false] at h1 hc
      have : (fs.map (·.x)).count x * (eCost n (dp a x) + 1) ≤ 1 * (eCost n (dp a x) + 1) := Nat.mul_le_mul_right _ (by omega)
      omega
  have key2 : ∀ (fs : List GFrame), (fs.map (·.x)).count x ≤ 1 → frs n a' fs ≤ frs n a fs + (eCost n (dp a x) + 1) := by
    intro fs hc
    have h2 := frs_box (n := n) (fs := fs) hd hb
    have : (fs.map (·.x)).count x * (eCost n (dp a x) + 1) ≤ 1 * (eCost n (dp a x) + 1) := Nat.mul_le_mul_right _ hc
    omega
  cases pc
  case up d => cases d <;> simp only [rho, hd] <;> omega
  case gRet g fs y => have := key2 fs hc; simp only [rho]; omega
  case gLoad z fs y =>
    have := key2 fs (by simp only [ids, List.count_cons] at hc; omega)
    simp only [rho, hd]; omega
  case gTry z b p fs y => have := key z b fs hc; simp only [rho, hd]; omega
  case gPar z b fs y => have := key z b fs hc; simp only [rho, hd]; omega
  case gCas z b p fs y => have := key z b fs hc; simp only [rho]; omega
  all_goals (simp only [rho, hd]; omega)

/-! ## The callers of `guard` are different -/

theorem dp_par (P : ParOK a) {x p : Nat} (h : a.par x = some p) : dp a x = dp a p + 1 := by
  obtain ⟨_, _, _, s, e⟩ := P.par x p h
  simp [dp, e, Lab.child]

theorem Chain.deep (P : ParOK a) : ∀ {fs : List GFrame} {x y : Nat}, Chain a x fs y →
    (∀ z ∈ fs.map (·.x), dp a x < dp a z ∧ z < a.b.sk.next) ∧ (x :: fs.map (·.x)).Nodup := by
  intro fs
  induction fs with
  | nil => intro x y _; simp
  | cons f fs ih =>
    rintro x y ⟨rfl, h2, h3⟩
    obtain ⟨h4, h5⟩ := ih h3
    have h6 := dp_par P h2
    have h7 : ∀ z ∈ (f :: fs).map (·.x), dp a f.p < dp a z ∧ z < a.b.sk.next := by
      intro z hz
      simp only [List.map_cons, List.mem_cons] at hz
      rcases hz with rfl | hz
      · exact ⟨by omega, (P.par _ _ h2).1⟩
      · have := h4 z hz; exact ⟨by omega, this.2⟩
    refine ⟨h7, ?_⟩
    rw [List.nodup_cons]
    exact ⟨fun hx => by have := (h7 _ hx).1; omega, h5⟩

theorem Nodup.count_le {l : List Nat} (h : l.Nodup) (x : Nat) : l.count x ≤ 1 := by
  exact List.nodup_iff_count.1 h x

/-! ## How much is left to do for destructors -/

def tcost : ATask → Nat
  | .base t => 3 * t.cost
  | .slice _ _ => 6
  | .guard _ => 3

def fgCost : Fg → Nat
  | .kid _ => 4
  | .val w => 6 * w.len + 7

def pcTodo : Pc α → Nat
  | .imFg todo _ _ _ => (todo.map fgCost).sum
  | _ => 0

/-- The destructors and `forget_items` of a call. -/
def tau (cl : Call α) : Nat := (cl.tasks.map tcost).sum + pcTodo cl.pc

def aTau (a : Arena α) : Nat := 3 * nsum a.b.sk Node.cost + 3 * sumTo a.ng a.gS

/-! ## One step of a call -/

/-- What a step at a program point does to the costs. -/
inductive Down (n : Nat) (a : Arena α) (pc : Pc α) (a' : Arena α) (nx : Next α) : Prop
  /-- nothing happens -/
  | stay (h : a' = a) (h' : nx = { pc := pc }) (hp : (∃ r, pc = .done r) ∨ (∃ d g s v, pc = .wait d g s ∧ a.guard g = some v ∧ v.cGate = true) ∨
      ∃ d g v, pc = .dg0 d g ∧ a.guard g = some v ∧ v.dGate = true)
  /-- the call gets on -/
  | down (hb : ∀ x, x < a.b.sk.next → a'.box x = a.box x) (h : rho n a' nx.pc < rho n a pc)
  /-- … and makes a guard for `x` -/
  | inst (x b : Nat) (og : Option Nat) (fs : List GFrame) (y : Nat) (hp : pc = .gCas x b og fs y) (hx : a.box x = b) (nb : Nat)
      (hd : ∀ z, dp a' z = dp a z) (hb : a'.box = upd a.box x nb) (h : rho n a' nx.pc + n * (eCost n (dp a x) + 1) < rho n a pc)
  /-- `forget_items` -/
  | fg (hb : a'.box = a.box) (h : rho n a' nx.pc = rho n a pc)
      (ht : aTau a' + pcTodo nx.pc + (nx.tasks.map tcost).sum < aTau a + pcTodo pc)

theorem eCost_ge (n δ : Nat) : 2 ≤ eCost n δ := by cases δ <;> simp only [eCost] <;> omega

theorem down_pc {T : List AT} {bh : Option Handle} {pc : Pc α} {nx : Next α} (I : HInv a.b T) (P : ParOK a) (hp : pcOK a bh pc)
    (hl : ∀ x ∈ ids pc, x < a.b.sk.next) (ev : AEvo a a') (e : PStep a pc a' nx) : Down n a pc a' nx := by
  have dpe : ∀ {x}, x < a.b.sk.next → dp a' x = dp a x := fun h => dp_evo ev.evo h
  have ge := eCost_ge n
  have ce := cost_eq n
  cases e
  case done r => exact .stay rfl rfl (.inl ⟨r, rfl⟩)
  case waitC d g s v hv hc => exact .stay rfl rfl (.inr (.inl ⟨d, g, s, v, rfl, hv, hc⟩))
  case dg0C d g v hv hc => exact .stay rfl rfl (.inr (.inr ⟨d, g, v, rfl, hv, hc⟩))
  case gCasWin x b og fs y v hd hb =>
    refine .inst x b og fs y rfl hb a.nbox (fun _ => rfl) rfl ?_
    have hx := Chain.deep P hp
    have h1 : frs n ({ a with
          ng := a.ng + 1
          guard := upd a.guard a.ng (some ⟨og, false, false⟩)
          gS := upd a.gS a.ng 1
          gW := upd a.gW a.ng 1
          gOf := upd a.gOf a.ng x }.newBox x (some a.ng)) fs = frs n a fs := by
      refine frs_same fun z hz => ⟨rfl, ?_⟩
      have : z ≠ x := by rintro rfl; have := (hx.1 z hz).1; omega
      exact upd_ne _ _ this
    simp only [rho, h1, fr, hb, if_true, aCost]; omega
  case new0 xs _ r d _ e =>
    obtain ⟨h1, _, _, h2, _, _, _, _, _, h3, _⟩ := root_eq e
    refine .down (fun x hx => ?_) ?_
    · rw [h2]; refine upd_ne _ _ ?_
      have : (a.withB (newBuf a.b xs).1).b.sk.next = a.b.sk.next := rfl
      omega
    · simp only [rho, dp, h3, frs, List.map_nil, List.sum_nil, List.length_nil]; omega
  case new1 xs _ r h1 al d eh _ e =>
    obtain ⟨h2, _, _, h3, _, _, _, _, _, h4, _⟩ := root_eq e
    refine .down (fun x hx => ?_) ?_
    · rw [h3]; refine upd_ne _ _ ?_
      have : (a.withB h1).b.sk.next = a.b.sk.next + 1 := by cases eh; rfl
      omega
    · simp only [rho, dp, h4, frs, List.map_nil, List.sum_nil, List.length_nil]; omega
  case immut r d e =>
    obtain ⟨h1, _, _, h2, _, _, _, _, _, h3, _⟩ := root_eq e
    refine .down (fun x hx => ?_) ?_
    · rw [h2]; exact upd_ne _ _ (by omega)
    · simp only [rho, dp, h3, frs, List.map_nil, List.sum_nil, List.length_nil]; omega
  case csSame d s v h hd hs e =>
    have := dpe (hl d (List.mem_singleton.2 rfl))
    refine .down (fun _ _ => rfl) ?_
    simp only [rho, this, frs, List.map_nil, List.sum_nil]; omega
  case csKid d s v c hd hs hk =>
    have h1 := (I.good.shape.toDShape.dataKid d v s c (getData_some hd) hk).2.1
    refine .down (fun _ _ => rfl) ?_
    simp only [rho, dp, h1, Lab.child, List.length_cons]; omega
  case csLost d s r v c hd hk =>
    have h1 := (I.good.shape.toDShape.dataKid d v s c (getData_some hd) hk).2.1
    refine .down (fun _ _ => rfl) ?_
    simp only [rho, dp, h1, Lab.child, List.length_cons]; omega
  case csNo d s v hd hs hk => exact .down (fun _ _ => rfl) (by simp only [rho]; omega)
  case csNew d s v h hd e =>
    have := dpe (hl d (List.mem_singleton.2 rfl))
    exact .down (fun _ _ => rfl) (by simp only [rho, this]; omega)
  case csWin d s r v h1 c h2 hd hk e1 e2 =>
    have hd' := hl d (List.mem_singleton.2 rfl)
    obtain ⟨_, rfl⟩ := incS_some e2
    cases e1
    refine .down (fun x hx => upd_ne _ _ (by omega)) ?_
    show cost n ((upd a.b.sk.lab a.b.sk.next ((a.b.sk.lab d).child s) a.b.sk.next).path.length) + 0 < 2 + cost n (dp a d + 1)
    rw [upd_same]
    show cost n (dp a d + 1) + 0 < 2 + cost n (dp a d + 1)
    omega
  case csInc c h e =>
    have := dpe (hl c (List.mem_singleton.2 rfl))
    refine .down (fun _ _ => rfl) ?_
    simp only [rho, this, frs, List.map_nil, List.sum_nil]; omega
  case csLose c r h e =>
    have := dpe (hl c (List.mem_singleton.2 rfl))
    refine .down (fun _ _ => rfl) ?_
    simp only [rho, this, frs, List.map_nil, List.sum_nil]; omega
  case up d h hs e =>
    have := dpe (hl d (List.mem_singleton.2 rfl))
    refine .down (fun _ _ => rfl) ?_
    simp only [rho, this, frs, List.map_nil, List.sum_nil]; omega
  case gLoad x fs y v hd =>
    refine .down (fun _ _ => rfl) ?_
    have := ce (dp a x)
    simp only [rho, fr, if_true]; omega
  case gTryNo x b pend fs y h =>
    refine .down (fun _ _ => rfl) ?_
    have := ge (dp a x)
    simp only [rho]; omega
  case gTryOk x b pend fs y g hb hg =>
    refine .down (fun _ _ => rfl) ?_
    have h1 := ge (dp a x)
    have h2 : frs n { a with gS := upd a.gS g (a.gS g + 1) } fs = frs n a fs := rfl
    simp only [rho, h2]; omega
  case gParNo x b fs y v hd hq =>
    refine .down (fun _ _ => rfl) ?_
    have := ge (dp a x)
    simp only [rho]; omega
  case gParUp x b fs y v p h hd hq hs e =>
    refine .down (fun _ _ => rfl) ?_
    obtain ⟨_, rfl⟩ := incS_some e
    have h1 := dp_par P hq
    have h2 : eCost n (dp a x) = 2 + cost n (dp a p) := by rw [h1]; rfl
    show cost n (dp a p) + (fr n a x b + frs n a fs) < eCost n (dp a x) - 1 + fr n a x b + frs n a fs
    omega
  case gCasLost x b og fs y v hd hb =>
    refine .down (fun _ _ => rfl) ?_
    simp only [rho, fr, if_true, hb, if_false]; omega
  case gRet1 g f fs y =>
    refine .down (fun _ _ => rfl) ?_
    simp only [rho, frs, List.map_cons, List.sum_cons]; omega
  case imKid c todo g r acc v hd hc =>
    refine .fg rfl rfl ?_
    have h1 := getData_some hd
    have h2 := nsum_kill h1 (I.base.lt h1) Node.cost
    have h3 : aTau (a.withB (a.b.kill c)) = 3 * nsum { a.b.sk with node := upd a.b.sk.node c none } Node.cost + 3 * sumTo a.ng a.gS := rfl
    have h4 : ((kidsFg v).map fgCost).sum ≤ 8 := by
      simp only [kidsFg]
      cases v.kids .L <;> cases v.kids .R <;> simp [fgCost]
    rw [h3]
    simp only [aTau, pcTodo, List.map_append, List.sum_append, List.map_cons, List.sum_cons, List.map_nil, List.sum_nil, fgCost]
    simp only [Node.cost] at h2
    omega
  case imKidNo c todo g r acc v hd hc =>
    refine .fg rfl rfl ?_
    simp only [pcTodo, List.map_cons, List.sum_cons, List.map_nil, List.sum_nil, fgCost, tcost, Task.cost]; omega
  case imVal w todo g r acc =>
    refine .fg rfl rfl ?_
    simp only [pcTodo, List.map_cons, List.sum_cons, List.map_nil, List.sum_nil, fgCost, tcost, Task.cost]; omega
  all_goals exact .down (fun _ _ => rfl) (by simp [rho] <;> omega)

theorem map_base (ts : List Task) : ((ts.map ATask.base).map tcost).sum = 3 * (ts.map Task.cost).sum := by
  induction ts with
  | nil => rfl
  | cons t ts ih => simp only [List.map_cons, List.sum_cons, tcost, ih]; omega

theorem down_task {T : List AT} {D W C E : List Nat} {t : ATask} {ts : List ATask} (I : HInv a.b (ataskT t ++ T)) (hp : aplain t)
    (G : GI a D W C E) (e : ataskStep a t = .ok (a', ts)) :
    a'.box = a.box ∧ aTau a' + (ts.map tcost).sum < aTau a + tcost t := by
  cases t with
  | base t =>
    obtain ⟨⟨h1, ts1⟩, e1, e2⟩ := bind_ok e
    cases pure_ok e2
    obtain ⟨h', ts', e3, _, _, _, _, h4⟩ := HInv.task (t := t) I hp
    rw [e1] at e3; cases e3
    refine ⟨rfl, ?_⟩
    have h5 : aTau (a.withB h1) = 3 * nsum h1.sk Node.cost + 3 * sumTo a.ng a.gS := rfl
    rw [h5, map_base]
    simp only [aTau, tcost]; omega
  | slice d g =>
    obtain ⟨⟨h1, ts1⟩, e1, e2⟩ := bind_ok e
    cases pure_ok e2
    have I1 : HInv a.b (.ref d :: (.gd g :: T)) := I
    obtain ⟨h', ts', e3, _, _, _, _, h4⟩ := I1.dropS
    rw [e1] at e3; cases e3
    refine ⟨rfl, ?_⟩
    have h5 : aTau (a.withB h1) = 3 * nsum h1.sk Node.cost + 3 * sumTo a.ng a.gS := rfl
    rw [h5, List.map_append, List.sum_append, map_base]
    simp only [aTau, tcost, List.map_cons, List.map_nil, List.sum_cons, List.sum_nil]; omega
  | guard g =>
    simp only [ataskStep, Arena.dropG] at e
    split at e
    · cases e
    · next h0 =>
      have hlt : g < a.ng := by
        obtain ⟨v, hv⟩ := (G.live g).1 (by omega)
        refine Decidable.byContradiction fun hh => ?_
        rw [G.fresh g (by omega)] at hv; cases hv
      have key : ∀ k, sumTo a.ng (upd a.gS g k) + a.gS g = sumTo a.ng a.gS + k := by
        intro k
        have := sumTo_change (n := a.ng) (x := g) (f := a.gS) (g := upd a.gS g k) hlt (fun y hy => upd_ne _ _ hy)
        rwa [upd_same] at this
      split at e
      · cases e
        refine ⟨rfl, ?_⟩
        have := key (a.gS g - 1)
        show 3 * nsum a.b.sk Node.cost + 3 * sumTo a.ng (upd a.gS g (a.gS g - 1)) + 0 < aTau a + 3
        simp only [aTau]; omega
      · next h1 =>
        split at e
        · cases e
        · next v hv =>
          cases e
          refine ⟨rfl, ?_⟩
          have := key 0
          have h2 : ((v.parent.toList.map ATask.guard).map tcost).sum ≤ 3 := by cases v.parent <;> simp [tcost]
          show 3 * nsum a.b.sk Node.cost + 3 * sumTo a.ng (upd a.gS g 0) + _ < aTau a + 3
          simp only [aTau]; omega

end

/-! ## All calls together -/

theorem list_set_self {β : Type} : ∀ {l : List β} {i : Nat} {x : β}, l[i]? = some x → l.set i x = l := by
  intro l
  induction l with
  | nil => intro i x h; rfl
  | cons z l ih =>
    intro i x h
    cases i with
    | zero => simp only [List.getElem?_cons_zero, Option.some.injEq] at h; subst h; rfl
    | succ i => rw [List.set_cons_succ, ih (by simpa using h)]

theorem sum_set {β : Type} (f f' : β → Nat) (k : Nat) (y : β) : ∀ {L : List β} {i : Nat} {x : β}, L[i]? = some x →
    (∀ (j : Nat) z, j ≠ i → L[j]? = some z → f' z ≤ f z + k) →
    ((L.set i y).map f').sum + f x ≤ (L.map f).sum + f' y + k * L.length := by
  intro L
  induction L with
  | nil => intro i x h; simp at h
  | cons z L ih =>
    intro i x h hk
    cases i with
    | zero =>
      simp only [List.getElem?_cons_zero, Option.some.injEq] at h
      subst h
      have : (L.map f').sum ≤ (L.map f).sum + k * L.length := by
        have hk' : ∀ w ∈ L, f' w ≤ f w + k := by
          intro w hw
          obtain ⟨j, hj⟩ := List.mem_iff_getElem?.1 hw
          exact hk (j + 1) w (by omega) (by simpa using hj)
        clear hk ih
        induction L with
        | nil => simp
        | cons w L ih =>
          have h1 := ih fun w hw => hk' w (List.mem_cons_of_mem _ hw)
          have h2 := hk' w (List.mem_cons_self ..)
          simp only [List.map_cons, List.sum_cons, List.length_cons, Nat.mul_add, Nat.mul_one]; omega
      simp only [List.set_cons_zero, List.map_cons, List.sum_cons, List.length_cons, Nat.mul_add, Nat.mul_one]; omega
    | succ i =>
      have h1 := ih (i := i) (x := x) (by simpa using h) fun j w hj hw => hk (j + 1) w (by omega) (by simpa using hw)
      have h2 := hk 0 z (by omega) (by simp)
      simp only [List.set_cons_succ, List.map_cons, List.sum_cons, List.length_cons, Nat.mul_add, Nat.mul_one]; omega

def Conf.mu (c : Conf α) : Nat × Nat :=
  ((c.calls.map fun cl => rho c.calls.length c.a cl.pc).sum, aTau c.a + (c.calls.map tau).sum)

/-- The call has returned, or waits for a gate. -/
def Call.stuck (c : Conf α) (cl : Call α) : Prop :=
  cl.tasks = [] ∧ ((∃ r, cl.pc = .done r) ∨ (∃ d g s v, cl.pc = .wait d g s ∧ c.a.guard g = some v ∧ v.cGate = true) ∨
    ∃ d g v, cl.pc = .dg0 d g ∧ c.a.guard g = some v ∧ v.dGate = true)

section
variable {c c' : Conf α}

theorem Conf.BI.ids (B : c.BI) {i : Nat} {cl : Call α} (hi : c.calls[i]? = some cl) :
    (∀ x ∈ ids cl.pc, x < c.a.b.sk.next) ∧ (ids cl.pc).Nodup := by
  have hp := (B.calls i cl hi).1
  have bh : ∀ {d g}, cl.bh c = some (.strong d g) → d < c.a.b.sk.next := by
    intro d g h
    obtain ⟨k, b, _, hk⟩ := Conf.bh_get h
    exact B.heap.lt (ref_mem_aS (Conf.get_tok' hk (t := .ref d) (by simp [entT])))
  have kid : ∀ {x}, KidOf c.a (cl.bh c) x → x < c.a.b.sk.next := by
    rintro x ⟨d, g, s, v, _, hv, hk⟩
    obtain ⟨_, _, w, hw⟩ := B.heap.good.shape.toDShape.dataKid d v s x hv hk
    exact B.heap.base.lt hw
  have chain : ∀ {x fs y}, Chain c.a x fs y → (∀ z ∈ x :: fs.map (·.x), z < c.a.b.sk.next) ∧ (x :: fs.map (·.x)).Nodup := by
    intro x fs y h
    obtain ⟨h1, h2⟩ := Chain.deep B.par h
    refine ⟨fun z hz => ?_, h2⟩
    rcases List.mem_cons.1 hz with rfl | hz
    · exact (Chain.data B.par h).2
    · exact (h1 z hz).2
  cases hpc : cl.pc
  all_goals rw [hpc] at hp
  case wait d g s => exact ⟨by simpa [Arc.ids] using bh hp, by simp [Arc.ids]⟩
  case cs d s => obtain ⟨g, hp⟩ := hp; exact ⟨by simpa [Arc.ids] using bh hp, by simp [Arc.ids]⟩
  case csNew d s => obtain ⟨g, _, hp, _⟩ := hp; exact ⟨by simpa [Arc.ids] using bh hp, by simp [Arc.ids]⟩
  case csCas d s r => obtain ⟨g, _, hp, _⟩ := hp; exact ⟨by simpa [Arc.ids] using bh hp, by simp [Arc.ids]⟩
  case csInc d => exact ⟨by simpa [Arc.ids] using kid hp, by simp [Arc.ids]⟩
  case csLose d r => exact ⟨by simpa [Arc.ids] using kid hp, by simp [Arc.ids]⟩
  case up d =>
    cases d with
    | none => simp [Arc.ids]
    | some d =>
      obtain ⟨g, hp⟩ := hp
      obtain ⟨k, b, _, hk⟩ := Conf.bh_get hp
      exact ⟨by simpa [Arc.ids] using (B.ents k _ hk d rfl).1, by simp [Arc.ids]⟩
  case gLoad => exact chain hp
  case gTry => exact chain hp
  case gPar => exact chain hp
  case gCas => exact chain hp
  case gRet =>
    obtain ⟨x, hp⟩ := hp
    obtain ⟨h1, h2⟩ := chain hp
    exact ⟨fun z hz => h1 z (List.mem_cons_of_mem _ hz), (List.nodup_cons.1 h2).2⟩
  all_goals simp [Arc.ids]

theorem lex_le {x x' y y' : Nat} (h : x' ≤ x) (h' : y' < y) : Prod.Lex (· < ·) (· < ·) (x', y') (x, y) := by
  rcases Nat.lt_or_eq_of_le h with h | rfl
  · exact .left _ _ h
  · exact .right _ h'

section
variable {i : Nat} {cl cl' : Call α} {a' : Arena α} {new : List Ent} (hi : c.calls[i]? = some cl)
include hi

theorem mu_lt1 {k : Nat} (hk : ∀ (j : Nat) z, j ≠ i → c.calls[j]? = some z → rho c.calls.length a' z.pc ≤ rho c.calls.length c.a z.pc + k)
    (h : rho c.calls.length a' cl'.pc + k * c.calls.length < rho c.calls.length c.a cl.pc) :
    Prod.Lex (· < ·) (· < ·) (c.after i a' cl' new).mu c.mu := by
  have := sum_set (fun cl : Call α => rho c.calls.length c.a cl.pc) (fun cl => rho c.calls.length a' cl.pc) k
    { cl' with out := cl'.out ++ List.range' c.hs.length new.length } hi hk
  simp only [Conf.mu, Conf.after, List.length_set] at this ⊢
  exact .left _ _ (by omega)

theorem mu_lt2 (hk : ∀ (j : Nat) z, j ≠ i → c.calls[j]? = some z → rho c.calls.length a' z.pc ≤ rho c.calls.length c.a z.pc)
    (h : rho c.calls.length a' cl'.pc ≤ rho c.calls.length c.a cl.pc) (ht : aTau a' + tau cl' < aTau c.a + tau cl) :
    Prod.Lex (· < ·) (· < ·) (c.after i a' cl' new).mu c.mu := by
  have h1 := sum_set (fun cl : Call α => rho c.calls.length c.a cl.pc) (fun cl => rho c.calls.length a' cl.pc) 0
    { cl' with out := cl'.out ++ List.range' c.hs.length new.length } hi hk
  have h2 := sum_set (tau (α := α)) tau 0 { cl' with out := cl'.out ++ List.range' c.hs.length new.length } hi
    (fun _ _ _ _ => Nat.le_refl _)
  have h3 : tau { cl' with out := cl'.out ++ List.range' c.hs.length new.length } = tau cl' := rfl
  simp only [Conf.mu, Conf.after, List.length_set] at h1 h2 ⊢
  exact lex_le (by omega) (by omega)

end

/-- Every step takes all calls together closer to the end, if it does anything. -/
theorem Conf.BI.down (B : c.BI) {i : Nat} (ev : AEvo c.a c'.a) (h : c.step i = .ok c') :
    (c' = c ∧ ∀ cl, c.calls[i]? = some cl → cl.stuck c) ∨ Prod.Lex (· < ·) (· < ·) c'.mu c.mu := by
  have rho_eq : ∀ (_ : ∀ x, x < c.a.b.sk.next → c'.a.box x = c.a.box x) (j : Nat) cl, c.calls[j]? = some cl →
      rho c.calls.length c'.a cl.pc = rho c.calls.length c.a cl.pc := by
    intro hb j cl hj
    have := (B.ids hj).1
    exact rho_same fun x hx => ⟨dp_evo ev.evo (this x hx), hb x (this x hx)⟩
  cases CStep.of h with
  | none hn => exact .inl ⟨rfl, fun cl hi => by rw [hn] at hi; cases hi⟩
  | task cl t ts a' new hi ht e =>
    have I : HInv c.a.b (ataskT t ++ (ts.flatMap ataskT ++ pcT cl.pc ++ c.rest i)) := by
      have := B.heap.perm (Conf.T_perm hi)
      simpa [callT, ht, List.append_assoc] using this
    obtain ⟨h1, h2⟩ := down_task I ((B.calls i cl hi).2 t (by rw [ht]; exact List.mem_cons_self ..)) B.gi e
    have e1 := rho_eq fun x _ => congrFun h1 x
    refine .inr (mu_lt2 hi (fun j z _ hj => Nat.le_of_eq (e1 j z hj)) (Nat.le_of_eq (e1 i cl hi)) ?_)
    simp only [tau, ht, List.map_append, List.sum_append, List.map_cons, List.sum_cons]; omega
  | pc cl a' n hi ht e2 =>
    cases down_pc (n := c.calls.length) B.heap B.par (B.calls i cl hi).1 (B.ids hi).1 ev (.of e2) with
    | stay h1 h2 h3 =>
      have h1 : a' = c.a := h1
      subst h1; subst h2
      refine .inl ⟨?_, fun cl2 hi2 => ?_⟩
      · have : ({ cl with pc := cl.pc, tasks := [], out := cl.out ++ List.range' c.hs.length 0 } : Call α) = cl := by
          obtain ⟨o, p, t, b, u⟩ := cl; cases ht; simp
        obtain ⟨a, hs, calls⟩ := c
        simp only [Conf.after, List.map_nil, List.append_nil, List.length_nil, Conf.mk.injEq, true_and] at this ⊢
        rw [this]
        exact list_set_self hi
      · rw [hi] at hi2; cases hi2
        exact ⟨ht, h3⟩
    | down hb h1 =>
      exact .inr (mu_lt1 hi (k := 0) (fun j z _ hj => Nat.le_of_eq (rho_eq hb j z hj)) (by rw [Nat.zero_mul]; exact h1))
    | inst x b og fs y hp hx nb hd hb h1 =>
      refine .inr (mu_lt1 hi (k := eCost c.calls.length (dp c.a x) + 1) (fun j z _ hj => ?_) (by rw [Nat.mul_comm]; exact h1))
      exact rho_box hd hb (List.nodup_iff_count.1 (B.ids hj).2 x)
    | fg hb h1 h2 =>
      refine .inr (mu_lt2 hi (fun j z _ hj => Nat.le_of_eq (rho_eq (fun x _ => congrFun hb x) j z hj)) (Nat.le_of_eq h1) ?_)
      simp only [tau, ht, List.map_nil, List.sum_nil]
      have h2 : aTau a' + pcTodo n.pc + (n.tasks.map tcost).sum < aTau c.a + pcTodo cl.pc := h2
      omega

end
end Verif.Arc
