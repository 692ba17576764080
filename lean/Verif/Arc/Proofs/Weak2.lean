import Verif.Arc.Proofs.Weak
/-!
# The ledger of weak counters, of everything
-/

set_option linter.unusedSimpArgs false

namespace Verif.Arc
open Verif.Spec (Side Slot Family Rng End)
open Verif.Rc
variable {α : Type}

section
variable {c c' : Conf α}

theorem slotW_some (l : List Ent) : (l.map some).flatMap slotW = l.flatMap entW := by
  induction l with
  | nil => rfl
  | cons e l ih => simp only [List.map_cons, List.flatMap_cons, ih]; rfl

theorem flatMap_same {β γ : Type} {l : List β} {f g : β → List γ} (h : ∀ x ∈ l, f x = g x) : l.flatMap f = l.flatMap g := by
  induction l with
  | nil => rfl
  | cons x l ih =>
    simp only [List.flatMap_cons]
    rw [h x (List.mem_cons_self ..), ih fun y hy => h y (List.mem_cons_of_mem _ hy)]

/-- What a call holds is not affected by other calls. -/
theorem callHold_mono {a a' : Arena α} {bh : Option Handle} {cl : Call α} (P : ParOK a) (ev : AEvo a a') (h : pcOK a bh cl.pc) :
    callHold a' cl = callHold a cl := by
  simp only [callHold]
  cases hp : cl.pc with
  | csLose c r =>
    rw [hp] at h
    obtain ⟨d, g, s, v, _, h2, h3⟩ := h
    have := P.kid d v s c h2 h3
    simp only [pcHold]
    rw [ev.par c (P.par c d this).1]
  | _ => rfl

theorem led_after {i : Nat} {cl cl' : Call α} {a' : Arena α} {new : List Ent} (B : c.BI) (ev : AEvo c.a a') (hi : c.calls[i]? = some cl) (y : Nat) :
    (c.after i a' cl' new).led y + heapW c.a y + (callHold c.a cl).count y =
      c.led y + heapW a' y + (new.flatMap entW).count y + (callHold a' cl').count y := by
  have hs : ∀ l : List (Call α), (∀ x ∈ l, x ∈ c.calls) → l.flatMap (callHold a') = l.flatMap (callHold c.a) := fun l hl =>
    flatMap_same fun x hx => by
      obtain ⟨j, hj⟩ := List.getElem?_of_mem (hl x hx)
      exact callHold_mono B.par ev (B.calls j x hj).1
  have h1 := hs (c.calls.take i) fun x hx => List.mem_of_mem_take hx
  have h2 := hs (c.calls.drop (i + 1)) fun x hx => List.mem_of_mem_drop hx
  have h3 : c.calls.flatMap (callHold c.a) = (c.calls.take i).flatMap (callHold c.a) ++ (callHold c.a cl ++ (c.calls.drop (i + 1)).flatMap (callHold c.a)) := by
    conv => lhs; rw [list_split hi]
    rw [List.flatMap_append, List.flatMap_cons]
  have h4 : callHold a' { cl' with out := cl'.out ++ List.range' c.hs.length new.length } = callHold a' cl' := rfl
  simp only [Conf.led, Conf.after, set_split hi, List.flatMap_append, List.flatMap_cons, slotW_some, List.count_append, h1, h2, h3, h4]
  omega

theorem led_step {i : Nat} {cl : Call α} (B : c.BI) (ev : AEvo c.a c'.a) (hi : c.calls[i]? = some cl) (e : c.step i = .ok c') (y : Nat) :
    c'.led y + (callBlocks c.a cl).out.count y = c.led y + (callBlocks c.a cl).inc.count y + newW c.a c'.a y := by
  cases CStep.of e with
  | none h => rw [hi] at h; cases h
  | task cl2 t ts a' new h ht e1 =>
    rw [hi] at h; cases h
    have h1 := led_after (cl' := { cl with tasks := new ++ ts }) (new := []) B ev hi y
    obtain ⟨h2, h3, h4⟩ := task_led B.heap ((B.calls i cl hi).2 t (by rw [ht]; simp)) e1 y
    have h5 : callHold a' { cl with tasks := new ++ ts } = callHold c.a cl := by
      have := callHold_mono B.par ev (B.calls i cl hi).1
      exact this
    have h6 : callBlocks c.a cl = ataskBlocks c.a t := by simp only [callBlocks, ht]
    have h7 := newW_none h2 y
    rw [h6]
    simp only [List.flatMap_nil, List.count_nil, Nat.add_zero, Conf.after] at h1 h7 ⊢
    rw [h5] at h1
    omega
  | pc cl2 a' n h ht e1 =>
    rw [hi] at h; cases h
    have h1 := led_after (cl' := { cl with pc := n.pc, tasks := n.tasks }) (new := n.push) B ev hi y
    have h4 := pc_led B.heap B.par (B.calls i cl hi).1 (.of e1) cl.on y
    have h6 : callBlocks c.a cl = pcBlocks c.a cl.on cl.pc := by simp only [callBlocks, ht]
    rw [h6]
    simp only [callHold, Conf.after] at h1 h4 ⊢
    omega

theorem led_shared {op : Op α} {k : Nat} {pc : Pc α} (h : ∀ on, pcHold c.a on pc = []) (y : Nat) : (c.shared op k pc).led y = c.led y := by
  simp [Conf.led, Conf.shared, callHold, h]

theorem led_plain {op : Op α} {pc : Pc α} (h : ∀ on, pcHold c.a on pc = []) (y : Nat) : (c.plain op pc).led y = c.led y := by
  simp [Conf.led, Conf.plain, callHold, h]

theorem led_set {k : Nat} {e : Ent} (hk : c.get k = some e) (o : Option Ent) (y : Nat) :
    ((c.hs.set k o).flatMap slotW).count y + (entW e).count y = (c.hs.flatMap slotW).count y + (slotW o).count y := by
  have hk' : c.hs[k]? = some (some e) := by
    simp only [Conf.get] at hk
    cases h1 : c.hs[k]? with
    | none => rw [h1] at hk; cases hk
    | some o' => rw [h1] at hk; cases o' with
      | none => cases hk
      | some e' => cases hk; rfl
  have h1 : c.hs.flatMap slotW = (c.hs.take k).flatMap slotW ++ (entW e ++ (c.hs.drop (k + 1)).flatMap slotW) := by
    conv => lhs; rw [list_split hk']
    rw [List.flatMap_append, List.flatMap_cons]; rfl
  rw [h1, set_split hk', List.flatMap_append, List.flatMap_cons]
  simp only [List.count_append]; omega

theorem led_taking {op : Op α} {k : Nat} {pc : Pc α} {ts : List ATask} {e : Ent} (hk : c.get k = some e) (h : pcHold c.a (c.node k) pc = entW e)
    (y : Nat) : (c.taking op k pc ts).led y = c.led y := by
  have := led_set hk none y
  simp only [Conf.led, Conf.taking, List.flatMap_append, List.flatMap_cons, List.flatMap_nil, List.append_nil, List.count_append, callHold, h,
    slotW, List.count_nil] at this ⊢
  omega

theorem led_start {op : Op α} (e : c.start op = some c') (y : Nat) : c'.led y = c.led y := by
  cases SStep.of e with
  | weakNew => simp [Conf.led, slotW, entW]
  | endMut k d g hk =>
    have := led_set hk (some ⟨.strong d g, false⟩) y
    simp only [slotW, entW, List.count_nil] at this
    simp only [Conf.led]; omega
  | dropW k d g b hk hb => exact led_taking hk (by simp [pcHold, entW, Conf.node, hk]) y
  | new => exact led_plain (fun _ => rfl) y
  | mutNew => exact led_plain (fun _ => rfl) y
  | clone _ _ _ hk => exact led_shared (fun _ => rfl) y
  | cloneW _ _ _ _ hk => exact led_shared (fun _ => rfl) y
  | cloneSide _ _ _ _ hk => exact led_shared (fun _ => rfl) y
  | downgrade _ _ _ hk => exact led_shared (fun _ => rfl) y
  | upgrade _ _ _ _ hk => exact led_shared (fun _ => rfl) y
  | getMut _ _ _ hk hb => exact led_taking hk rfl y
  | intoMut _ _ _ hk hb => exact led_taking hk rfl y
  | intoImmut _ _ _ hk hb => exact led_taking hk rfl y
  | splitOff _ _ _ _ hk hb => exact led_taking hk rfl y
  | next _ _ _ _ hk hb => exact led_taking hk rfl y
  | cut _ _ _ _ _ hk hb => exact led_taking hk rfl y
  | dropS _ _ _ hk hb => exact led_taking hk rfl y
  | dropU _ _ _ hk hb => exact led_taking hk rfl y

theorem led_write {en : Ent} {j : Nat} {x : α} (e : c.write en j x = .ok c') (y : Nat) : c'.led y = c.led y ∧ c'.a.b.sk = c.a.b.sk := by
  rcases Conf.write_cases e with rfl | ⟨b, i, rfl⟩
  · exact ⟨rfl, rfl⟩
  · exact ⟨rfl, rfl⟩

theorem led_panic {i : Nat} (B : c.BI) (e : c.panic i = some c') (y : Nat) : c'.led y = c.led y ∧ c'.a.b.sk = c.a.b.sk := by
  obtain ⟨cl, r, ts, ts', us, s, p⟩ := Panicked.of B.heap e
  have hc : callHold c.a cl = [] := by
    have hu := p.clean
    simp only [callHold]
    cases hp : cl.pc <;> rw [hp] at hu <;> first | rfl | cases hu
  rw [p.eq]
  refine ⟨?_, rfl⟩
  have h3 : c.calls.flatMap (callHold c.a) = (c.calls.take i).flatMap (callHold c.a) ++ (callHold c.a cl ++ (c.calls.drop (i + 1)).flatMap (callHold c.a)) := by
    conv => lhs; rw [list_split p.call]
    rw [List.flatMap_append, List.flatMap_cons]
  have h0 : ∀ x : Call α, callHold (c.a.withB { c.a.b with slot := s }) x = callHold c.a x := fun _ => rfl
  have hh : heapW (c.a.withB { c.a.b with slot := s }) y = heapW c.a y := rfl
  simp only [Conf.led, set_split p.call, List.flatMap_append, List.flatMap_cons, hh, h3, hc, List.nil_append]
  rw [flatMap_same (f := callHold (c.a.withB { c.a.b with slot := s })) (g := callHold c.a) fun x _ => h0 x,
    flatMap_same (f := callHold (c.a.withB { c.a.b with slot := s })) (g := callHold c.a) fun x _ => h0 x]
  rfl

end

/-! ## The invariant -/

structure WConf.Ledger (w : WConf α) : Prop where
  led : ∀ x, w.wk x = w.c.led x + w.due.count x
  fresh : ∀ x, w.c.a.b.sk.next ≤ x → w.wk x = 0

section
variable {w w' : WConf α}

theorem WConf.Ledger.live (L : w.Ledger) {x : Nat} {n : Node} (h : w.c.a.b.sk.node x = some n) : w.there (.node x) = true := by
  have := L.led x
  simp only [Conf.led, heapW, hpW, h, Option.isSome_some, if_true] at this
  simp only [WConf.there, bne_iff_ne]; omega

theorem WConf.Ledger.pos (L : w.Ledger) (I : HInv w.c.a.b w.c.T) {x : Nat} (h : w.c.a.b.strong x ≠ 0) : w.there (.node x) = true := by
  obtain ⟨n, hn⟩ := I.good.ledger.node_of_pos (x := x) (by omega)
  exact L.live hn

theorem WConf.Ledger.up (L : w.Ledger) (P : ParOK w.c.a) {x p : Nat} {n : Node} (h : w.c.a.b.sk.node x = some n) (hp : w.c.a.par x = some p) :
    w.there (.node p) = true := by
  have h1 := L.led p
  have h2 := prefs_pos (f := fun z => (w.c.a.b.sk.node z).map fun _ => (⟨w.c.a.par z, false, false⟩ : GuardV)) (g := p)
    (P.par x p hp).1 (by simp only [h]; rfl) hp
  simp only [Conf.led, heapW, hpW] at h1
  simp only [WConf.there, bne_iff_ne]; omega

theorem WConf.Ledger.weak (L : w.Ledger) {k x : Nat} {g : Option Nat} {b : Bool} (h : w.c.get k = some ⟨.weak (some x) g, b⟩) :
    w.there (.node x) = true := by
  have h1 := L.led x
  have h2 : x ∈ w.c.hs.flatMap slotW := List.mem_flatMap.2 ⟨_, Conf.get_mem h, by simp [slotW, entW]⟩
  have h3 := List.count_pos_iff.2 h2
  simp only [Conf.led] at h1
  simp only [WConf.there, bne_iff_ne]; omega

theorem there_guard (G : w.c.GI) {g : Nat} (h : g < w.c.a.ng) : w.there (.guard g) = true := by
  have := Arc.GI.weak G g
  rw [if_pos h] at this
  simp only [WConf.there, Bool.or_eq_true, bne_iff_ne]; right; omega

theorem there_gS {g : Nat} (h : w.c.a.gS g ≠ 0) : w.there (.guard g) = true := by simp [WConf.there, h]

theorem there_gW {g : Nat} (h : w.c.a.gW g ≠ 0) : w.there (.guard g) = true := by simp [WConf.there, h]

/-- A step accesses only blocks that are there. -/
theorem WConf.Ledger.touch {i : Nat} {cl : Call α} {c' : Conf α} (L : w.Ledger) (A : w.c.IA false) (hi : w.c.calls[i]? = some cl)
    (e : w.c.step i = .ok c') : ∀ o ∈ (callBlocks w.c.a cl).touch, w.there o = true := by
  have B := A.bi
  have I := B.heap
  have tok : ∀ t, t ∈ callT cl → t ∈ w.c.T := fun t ht => Conf.call_tok hi ht
  have rf : ∀ x, .ref x ∈ w.c.T → w.there (.node x) = true := fun x hx => by
    obtain ⟨n, hn⟩ := I.live (x := x) (List.mem_flatMap.2 ⟨_, hx, by simp [AT.S]⟩)
    exact L.live hn
  have gd : ∀ g, .gd g ∈ w.c.T → w.there (.guard g) = true := fun g hg => by
    obtain ⟨_, _, h⟩ := BI_gd B.gi hg
    exact there_gS h
  have gv : ∀ g v, w.c.a.guard g = some v → w.there (.guard g) = true := fun g v hv => there_gS (B.gS hv)
  have dt : ∀ x v, w.c.a.b.getData x = .ok v → w.there (.node x) = true := fun x v h => L.live (getData_some h)
  have ic : ∀ x h, w.c.a.b.incS x = .ok h → w.there (.node x) = true := fun x h e => L.pos I (incS_some e).1
  cases CStep.of e with
  | none h => rw [hi] at h; cases h
  | task cl2 t ts a' new h ht e1 =>
    rw [hi] at h; cases h
    have h6 : callBlocks w.c.a cl = ataskBlocks w.c.a t := by simp only [callBlocks, ht]
    have tk : ∀ s, s ∈ ataskT t → s ∈ w.c.T := fun s hs => tok s (by simp [callT, ht, hs])
    rw [h6]
    intro o ho
    cases t with
    | base t =>
      cases t with
      | dropS x => simp only [ataskBlocks, List.mem_singleton] at ho; subst ho; exact rf x (tk _ (by simp [ataskT, taskT]))
      | _ => simp [ataskBlocks] at ho
    | slice d g => simp only [ataskBlocks, List.mem_singleton] at ho; subst ho; exact rf d (tk _ (by simp [ataskT]))
    | guard g => simp only [ataskBlocks, List.mem_singleton] at ho; subst ho; exact gd g (tk _ (by simp [ataskT]))
  | pc cl2 a' n h ht e1 =>
    rw [hi] at h; cases h
    have h6 : callBlocks w.c.a cl = pcBlocks w.c.a cl.on cl.pc := by simp only [callBlocks, ht]
    have hp := (B.calls i cl hi).1
    have hg := (A.gf.calls i cl hi).1
    have st := PStep.of e1
    rw [h6]
    generalize cl.pc = pc at hp hg st
    have bs : ∀ d g, cl.bh w.c = some (.strong d g) → w.there (.node d) = true := fun d g hb => by
      obtain ⟨k, b, _, hk⟩ := Conf.bh_get hb
      exact rf d (Conf.get_tok' hk (by simp [entT]))
    have bw : ∀ d g, cl.bh w.c = some (.weak (some d) g) → w.there (.node d) = true := fun d g hb => by
      obtain ⟨k, b, _, hk⟩ := Conf.bh_get hb
      exact L.weak hk
    intro o ho
    cases st
    all_goals try (simp only [pcBlocks, List.not_mem_nil] at ho; done)
    all_goals try (simp only [pcBlocks, List.mem_singleton] at ho; subst ho; first
      | exact dt _ _ (by assumption) | exact gv _ _ (by assumption) | exact ic _ _ (by assumption) | exact there_gS (by assumption))
    case upN => simp [pcBlocks] at ho
    case wdN => simp [pcBlocks] at ho
    case gTryNo x b pend fs y h =>
      simp only [pcBlocks, List.mem_cons, List.mem_map, Option.mem_toList] at ho
      rcases ho with rfl | ⟨g, h1, rfl⟩
      · simpa [WConf.there] using hg.1.1
      · exact there_guard B.gi (hg.1.2 g h1).1
    case gTryOk x b pend fs y g hb hs =>
      simp only [pcBlocks, List.mem_cons, List.mem_map, Option.mem_toList] at ho
      rcases ho with rfl | ⟨g, h1, rfl⟩
      · simpa [WConf.there] using hg.1.1
      · exact there_guard B.gi (hg.1.2 g h1).1
    case gParNo hd _ =>
      simp only [pcBlocks, List.mem_cons, List.mem_map, Option.mem_toList] at ho
      rcases ho with rfl | ⟨p, h1, rfl⟩
      · exact dt _ _ hd
      · exact L.up B.par (getData_some hd) h1
    case gParUp hd _ _ _ =>
      simp only [pcBlocks, List.mem_cons, List.mem_map, Option.mem_toList] at ho
      rcases ho with rfl | ⟨p, h1, rfl⟩
      · exact dt _ _ hd
      · exact L.up B.par (getData_some hd) h1
    case dg1 hv =>
      simp only [pcBlocks, List.mem_cons, List.not_mem_nil, or_false] at ho
      rcases ho with rfl | rfl
      · exact bs _ _ hp
      · exact gv _ _ hv
    case upNo =>
      obtain ⟨g, hp⟩ := hp
      simp only [pcBlocks, Option.toList_some, List.map_cons, List.map_nil, List.mem_singleton] at ho
      subst ho; exact bw _ _ hp
    case up =>
      obtain ⟨g, hp⟩ := hp
      simp only [pcBlocks, Option.toList_some, List.map_cons, List.map_nil, List.mem_singleton] at ho
      subst ho; exact bw _ _ hp
    case wcN =>
      simp only [pcBlocks, Option.toList_none, List.map_nil, List.append_nil, List.mem_map, Option.mem_toList] at ho
      obtain ⟨x, rfl, rfl⟩ := ho
      exact bw _ _ hp
    case wc hw =>
      simp only [pcBlocks, Option.toList_some, List.map_cons, List.map_nil, List.mem_append, List.mem_map, Option.mem_toList, List.mem_singleton] at ho
      rcases ho with ⟨x, rfl, rfl⟩ | rfl
      · exact bw _ _ hp
      · exact there_gW hw
    case wd hw =>
      simp only [pcBlocks, Option.toList_some, List.map_cons, List.map_nil, List.mem_singleton] at ho
      subst ho; exact there_gW hw

/-- A `Weak` is made only for a block that is accessed. -/
theorem inc_touch {a : Arena α} {cl : Call α} {x : Nat} (h : x ∈ (callBlocks a cl).inc) : Obj.node x ∈ (callBlocks a cl).touch := by
  simp only [callBlocks] at h ⊢
  split at h
  · next t ts ht =>
    cases t with
    | base t => cases t <;> simp [ataskBlocks] at h
    | _ => simp [ataskBlocks] at h
  · next ht =>
    cases hp : cl.pc with
    | csNew d s => rw [hp] at h; simp_all [pcBlocks]
    | dg1 d g => rw [hp] at h; simp_all [pcBlocks]
    | wc d g => rw [hp] at h; simp_all [pcBlocks]
    | imFg todo g r acc =>
      rw [hp] at h
      cases todo with
      | nil => simp [pcBlocks] at h
      | cons f todo => cases f <;> simp [pcBlocks] at h
    | _ => rw [hp] at h; simp [pcBlocks] at h

theorem WConf.Ledger.step (L : w.Ledger) (A : w.c.IA false) (i : Nat) : ∃ w', w.step i = .ok w' ∧ w'.Ledger ∧ w.c.step i = .ok w'.c ∧
    ∀ x, x < w.c.a.b.sk.next → w.wk x = 0 → w'.wk x = 0 := by
  obtain ⟨c', e, A', ge⟩ := A.step (i := i)
  cases hi : w.c.calls[i]? with
  | none =>
    have : c' = w.c := by simp only [Conf.step, hi] at e; cases e; rfl
    subst this
    exact ⟨w, by simp only [WConf.step, hi], L, e, fun _ _ h => h⟩
  | some cl =>
    have ht := L.touch A hi e
    have hinc : ∀ x, w.wk x = 0 → (callBlocks w.c.a cl).inc.count x = 0 := fun x hx => by
      refine List.count_eq_zero.2 fun hm => ?_
      have := ht _ (inc_touch hm)
      simp [WConf.there, hx] at this
    refine ⟨_, by simp only [WConf.step, hi, e, bind, Except.bind]; rw [if_pos (List.all_eq_true.2 ht)], ⟨fun x => ?_, fun x hx => ?_⟩, e, fun x hx h0 => ?_⟩
    · have h1 := led_step A.bi ge.evo hi e x
      have h2 := L.led x
      simp only [newW] at h1
      simp only [List.count_append]
      split
      · next h =>
        rw [if_pos h] at h1
        have h3 := L.fresh x h.1
        have := hinc x h3
        omega
      · next h =>
        rw [if_neg h] at h1
        omega
    · have := ge.evo.evo.next
      simp only at hx ⊢
      have h3 := L.fresh x (by omega)
      rw [if_neg (by omega), h3, hinc x h3]
    · simp only
      rw [if_neg (by omega), h0, hinc x h0]

theorem WConf.Ledger.release (L : w.Ledger) (j : Nat) : ∃ w', w.release j = .ok w' ∧ w'.Ledger ∧ w'.c = w.c ∧ ∀ x, w.wk x = 0 → w'.wk x = 0 := by
  cases hj : w.due[j]? with
  | none => exact ⟨w, by simp only [WConf.release, hj], L, rfl, fun _ h => h⟩
  | some x =>
    have hc : ∀ y, w.due.count y = (w.due.eraseIdx j).count y + if x = y then 1 else 0 := fun y => by
      rw [List.eraseIdx_eq_take_drop_succ]
      conv => lhs; rw [list_split hj]
      simp only [List.count_append, List.count_cons, beq_iff_eq]; omega
    have hx : w.wk x ≠ 0 := by
      have h1 := L.led x
      have h2 := hc x
      rw [if_pos rfl] at h2; omega
    refine ⟨{ w with wk := upd w.wk x (w.wk x - 1), due := w.due.eraseIdx j }, by simp only [WConf.release, hj]; rw [if_neg hx], ⟨fun y => ?_, fun y hy => ?_⟩, rfl, fun y hy => ?_⟩
    · have h1 := L.led y
      have h2 := hc y
      by_cases h : y = x
      · subst h; simp only [upd_same, if_true] at h2 ⊢; omega
      · rw [if_neg fun h' => h h'.symm] at h2; simp only [upd_ne _ _ h]; omega
    · have h := L.fresh y hy
      by_cases h' : y = x
      · subst h'; exact (hx h).elim
      · simp only [upd_ne _ _ h']; exact h
    · by_cases h' : y = x
      · subst h'; exact (hx hy).elim
      · simp only [upd_ne _ _ h']; exact hy

end

theorem WConf.Ledger.init (zst : Bool) : (WConf.init (α := α) zst).Ledger :=
  ⟨fun x => by simp [WConf.init, Conf.led, Conf.init, heapW, hpW, prefs, Heap.empty], fun _ _ => rfl⟩

section
variable {w w' : WConf α} {P : Rules α} {zst : Bool}

theorem WConf.Ledger.run (L : w.Ledger) (A : w.c.IA false) (r : WConf.Run P w w') : w'.Ledger ∧ w.c.a.b.sk.next ≤ w'.c.a.b.sk.next ∧
    ∀ x, x < w.c.a.b.sk.next → w.wk x = 0 → w'.wk x = 0 := by
  cases r with
  | run i e =>
    obtain ⟨w2, e2, L2, ec, h⟩ := L.step A i
    rw [e] at e2; cases e2
    obtain ⟨c', ec', _, ge⟩ := A.step (i := i)
    rw [ec] at ec'; cases ec'
    exact ⟨L2, ge.evo.evo.next, h⟩
  | start op hp e =>
    have : _ = w.c.a := (Conf.start_T e).2
    exact ⟨⟨fun x => by show w.wk x = _; rw [led_start e]; exact L.led x, fun x hx => L.fresh x (by rw [← this]; exact hx)⟩,
      by show w.c.a.b.sk.next ≤ _; rw [this]; exact Nat.le_refl _, fun _ _ h => h⟩
  | write k en j x hk hw e =>
    have := (led_write e 0).2
    exact ⟨⟨fun x => by show w.wk x = _; rw [(led_write e x).1]; exact L.led x, fun x hx => L.fresh x (by rw [← this]; exact hx)⟩,
      by show w.c.a.b.sk.next ≤ _; rw [this]; exact Nat.le_refl _, fun _ _ h => h⟩
  | panic i e =>
    have := (led_panic A.bi e 0).2
    exact ⟨⟨fun x => by show w.wk x = _; rw [(led_panic A.bi e x).1]; exact L.led x, fun x hx => L.fresh x (by rw [← this]; exact hx)⟩,
      by show w.c.a.b.sk.next ≤ _; rw [this]; exact Nat.le_refl _, fun _ _ h => h⟩
  | release j e =>
    obtain ⟨w2, e2, L2, ec, h⟩ := L.release j
    rw [e] at e2; cases e2
    exact ⟨L2, by rw [ec]; exact Nat.le_refl _, fun x _ => h x⟩

theorem WConf.step_c {i : Nat} (e : w.step i = .ok w') : w.c.step i = .ok w'.c := by
  simp only [WConf.step] at e
  split at e
  · next h => cases e; simp only [Conf.step, h]
  · obtain ⟨c', e1, e2⟩ := bind_ok e
    split at e2 <;> cases e2
    exact e1

theorem WConf.release_c {j : Nat} (e : w.release j = .ok w') : w'.c = w.c := by
  simp only [WConf.release] at e
  split at e
  · cases e; rfl
  · split at e <;> cases e; rfl

theorem WConf.Runs.preach (r : WConf.Runs P w w') (h : Conf.PReach P zst w.c) : Conf.PReach P zst w'.c := by
  induction r with
  | refl => exact h
  | snoc _ s ih =>
    cases s with
    | run i e => exact .run ih i (WConf.step_c e)
    | start op hp e => exact .start ih op hp e
    | write k en j x hk hw e => exact .write ih k en j x hk hw e
    | panic i e => exact .panic ih i e
    | release j e => rw [WConf.release_c e]; exact ih

theorem WConf.Reach.preach (h : WConf.Reach P zst w) : Conf.PReach P zst w.c := WConf.Runs.preach h .init

theorem WConf.Reach.ledger (hP : PTame P) (h : WConf.Reach P zst w) : w.Ledger := by
  have : ∀ w0 w : WConf α, WConf.Runs P w0 w → Conf.PReach P zst w0.c → w0.Ledger → w.Ledger := by
    intro w0 w r h0 L
    induction r with
    | refl => exact L
    | snoc r s ih => exact (ih.run ((r.preach h0).IA' hP) s).1
  exact this _ _ h .init (.init zst)

/-- Every run without weak counters is one with weak counters. -/
theorem Conf.PReach.weak (hP : PTame P) {c : Conf α} (h : Conf.PReach P zst c) : ∃ w, WConf.Reach P zst w ∧ w.c = c := by
  induction h with
  | init => exact ⟨_, .refl _, rfl⟩
  | run _ i e ih =>
    obtain ⟨w, h, rfl⟩ := ih
    obtain ⟨w', e1, _, e2, _⟩ := (h.ledger hP).step (h.preach.IA' hP) i
    rw [e] at e2
    exact ⟨w', .snoc h (.run i e1), (Except.ok.inj e2).symm⟩
  | start _ op hp e ih => obtain ⟨w, h, rfl⟩ := ih; exact ⟨_, .snoc h (.start op hp e), rfl⟩
  | write _ k en j x hk hw e ih => obtain ⟨w, h, rfl⟩ := ih; exact ⟨_, .snoc h (.write k en j x hk hw e), rfl⟩
  | panic _ i e ih => obtain ⟨w, h, rfl⟩ := ih; exact ⟨_, .snoc h (.panic i e), rfl⟩

end
end Verif.Arc
