import Verif.Arc.Proofs.Pub4
/-!
# Objects are published before they are used, and used before they are destroyed
-/

namespace Verif.Arc
open Verif.Spec (Side Slot Family Rng End)
open Verif.Rc
variable {α : Type}

/-- Whoever knows `V` knows that `X` was made, and whatever its maker knew. -/
def Kno (v : VConf α) (V : View) (X : Obj) : Prop :=
  ∃ i ev, v.log[i]? = some ev ∧ ev.obj X = .make ∧ i ∈ V ∧ ∀ e ∈ ev.view, e ∈ V

theorem Kno.sub {v : VConf α} {V W : View} {X : Obj} (h : Kno v V X) (hs : ∀ e ∈ V, e ∈ W) : Kno v W X := by
  obtain ⟨i, ev, h1, h2, h3, h4⟩ := h
  exact ⟨i, ev, h1, h2, hs _ h3, fun e he => hs _ (h4 e he)⟩

theorem Kno.grow {v v' : VConf α} {V : View} {X : Obj} {new : List Ev} (hl : v'.log = v.log ++ new) (h : Kno v V X) : Kno v' V X := by
  obtain ⟨i, ev, h1, h2, h3, h4⟩ := h
  refine ⟨i, ev, ?_, h2, h3, h4⟩
  rw [hl, List.getElem?_append_left (List.getElem?_eq_some_iff.1 h1).1]; exact h1

theorem Kno.old {v v' : VConf α} {V : View} {X : Obj} {new : List Ev} (hl : v'.log = v.log ++ new) (hn : ∀ ev ∈ new, ev.obj X ≠ .make)
    (h : Kno v' V X) : Kno v V X := by
  obtain ⟨i, ev, h1, h2, h3, h4⟩ := h
  refine ⟨i, ev, ?_, h2, h3, h4⟩
  rw [hl] at h1
  by_cases hlt : i < v.log.length
  · rwa [List.getElem?_append_left hlt] at h1
  · rw [List.getElem?_append_right (by omega)] at h1
    exact absurd h2 (hn ev (List.mem_of_getElem? h1))

/-- What is known about objects. -/
structure PubI (v : VConf α) : Prop where
  made : ∀ (i : Nat) ev X, v.log[i]? = some ev → ev.obj X ≠ .none → v.c.a.made X = true
  first : ∀ (i j : Nat) ev f X, i < j → v.log[i]? = some ev → v.log[j]? = some f → f.obj X = .make → ev.obj X = .none
  use : ∀ (j : Nat) f X, v.log[j]? = some f → f.obj X ≠ .none → f.obj X = .make ∨ Kno v f.view X
  call : ∀ (i : Nat) cl X, v.c.calls[i]? = some cl → X ∈ callO cl → Kno v (v.cv i) X
  ent : ∀ k en X, v.c.get k = some en → X ∈ entO en → Kno v (v.hb k) X
  kid : ∀ x u s c, v.c.a.b.sk.node x = some (.data u) → u.kids s = some c → Kno v (v.m (.kid x s)) (.node c)
  box : ∀ x u V, v.c.a.b.sk.node x = some (.data u) → Kno v V (.node x) → (∀ e ∈ v.m (.box x), e ∈ V) → Kno v V (.box (v.c.a.box x))
  lnk : ∀ X Y V, Lnk v.c.a X Y → Kno v V X → Kno v V Y
  bodyN : ∀ (i : Nat) ev x, v.log[i]? = some ev → ev.obj (.node x) = .body → v.c.a.live (.node x) = true → Kn v i x
  bodyG : ∀ (i : Nat) ev g, v.log[i]? = some ev → ev.obj (.guard g) = .body → v.c.a.live (.guard g) = true → KnG v i g
  dead : ∀ (i : Nat) ev X, v.log[i]? = some ev → ev.obj X = .free → v.c.a.live X = false
  gone : ∀ (i j : Nat) ev f X, i < j → v.log[i]? = some ev → v.log[j]? = some f → ev.obj X = .free → f.obj X ≠ .body ∧ f.obj X ≠ .free
  order : ∀ (i j : Nat) ev f X, i < j → v.log[i]? = some ev → v.log[j]? = some f → ev.obj X = .body ∨ ev.obj X = .free →
    ev.obj X = .free ∨ f.obj X = .free → f.obj X = .body ∨ f.obj X = .free → i ∈ f.view

section
variable {v v' : VConf α}

theorem PubI.knoMade (I : PubI v) {V : View} {X : Obj} (h : Kno v V X) : v.c.a.made X = true := by
  obtain ⟨i, ev, h1, h2, _⟩ := h
  exact I.made i ev X h1 (by rw [h2]; simp)

theorem node_made {a : Arena α} (B : Base a.b.sk) {x : Nat} {n : Node} (h : a.b.sk.node x = some n) : a.made (.node x) = true := by
  refine decide_eq_true (Nat.lt_of_not_le fun hx => ?_)
  rw [B.fresh x hx] at h; cases h

theorem live_made {c : Conf α} (B : c.BI) {X : Obj} (h : c.a.live X = true) : c.a.made X = true := by
  cases X with
  | node x =>
    obtain ⟨n, hn⟩ := Option.isSome_iff_exists.1 h
    exact node_made B.heap.base hn
  | guard g =>
    obtain ⟨w, hw⟩ := Option.isSome_iff_exists.1 h
    exact decide_eq_true (Arc.GI.lt B.gi hw)
  | box b => exact h

theorem lnk_made {c : Conf α} (B : c.BI) {X Y : Obj} (h : Lnk c.a X Y) : c.a.made X = true := by
  cases h with
  | alloc h _ => exact node_made B.heap.base h
  | par h _ => exact node_made B.heap.base h
  | tgt h _ => exact decide_eq_true h
  | gpar h _ => exact decide_eq_true (Arc.GI.lt B.gi h)
  | gof h => exact decide_eq_true h

/-- Of two accesses that clash the earlier one happened before the later one. -/
theorem PubI.ordered (I : PubI v) {i j : Nat} (hij : i < j) (h : v.Clash i j) : v.Before i j := by
  obtain ⟨e, f, X, h1, h2, h3⟩ := h
  refine ⟨f, h2, ?_⟩
  by_cases hf : f.obj X = .make
  · rw [I.first i j e f X hij h1 h2 hf, hf] at h3; cases h3
  by_cases he : e.obj X = .make
  · have hn : f.obj X ≠ .none := by intro h; rw [he, h] at h3; cases h3
    rcases I.use j f X h2 hn with h | ⟨i', ev, h4, h5, h6, h7⟩
    · exact absurd h hf
    · have : i' = i := by
        rcases Nat.lt_trichotomy i' i with h | h | h
        · rw [I.first i' i ev e X h h4 h1 he] at h5; cases h5
        · exact h
        · rw [I.first i i' e ev X h h1 h4 h5] at he; cases he
      exact this ▸ h6
  · refine I.order i j e f X hij h1 h2 ?_ ?_ ?_ <;> revert h3 <;> cases h5 : e.obj X <;> cases h6 : f.obj X <;> simp_all [Touch.clash]

variable {o : Ords} {i : Nat} {cl cl' : Call α} {push : List Ent} {U R N : List AT} {V : View}

/-- Which events there are after a step. -/
theorem VStp.logs (S : VStp o v v' i cl cl' push U R N V) {j : Nat} {f : Ev} (h : v'.log[j]? = some f) :
    (j < v.log.length ∧ v.log[j]? = some f) ∨
    (j = v.log.length ∧ f = ⟨false, false, fun _ _ => false, preObj v.c.a v'.c.a cl, v.cv i⟩) ∨
    (j = v.log.length + 1 ∧ f = ⟨true, false, touched v.c.a v'.c.a, postObj v.c.a v'.c.a, V⟩) := by
  rw [S.log, ← List.append_assoc] at h
  rcases append_call h with h | ⟨h1, h2⟩
  · rcases append_call h with h | ⟨h1, h2⟩
    · exact .inl ⟨(List.getElem?_eq_some_iff.1 h).1, h⟩
    · exact .inr (.inl ⟨h1, h2⟩)
  · exact .inr (.inr ⟨by simpa using h1, h2⟩)

theorem VStp.pm (S : VStp o v v' i cl cl' push U R N V) (B : v.c.BI) (hm : ∀ X ∈ callO cl, v.c.a.made X = true) :
    PMv v.c.a v'.c.a (callAcc o v.c.a cl) (callO cl) (callHead v.c.a cl ++ callBody cl) (callO cl' ++ entsO push) := by
  have hI := B.heap.perm S.p
  rcases S.how with ⟨t, ts, new, ht, e, rfl, rfl, rfl, rfl⟩ | ⟨n, ht, hs, rfl, rfl, rfl, rfl⟩
  · have := pm_task (U := callO cl) (W := ts.flatMap ataskO ++ pcO cl.pc) hI ((B.calls i cl S.hi).2 t (by simp [ht])) e
      (fun X hX => by simp [callO, ht, hX]) (fun X hX => by simp only [callO, ht, List.flatMap_cons, List.append_assoc]; exact List.mem_append_right _ hX)
    replace this := this.byAcc (AccLe.filter (o := o))
    simp only [callAcc, callHead, callBody, ht, entsO, List.flatMap_nil, callO, List.append_nil, List.flatMap_append] at this ⊢
    simpa only [List.append_assoc] using this
  · have hm' : ∀ X ∈ pcO cl.pc, v.c.a.made X = true := fun X hX => hm X (by simp [callO, hX])
    have := pm_pc (o := o) hI (B.calls i cl S.hi).1 (fun c ⟨d, g, s, w, _, h1, h2⟩ => (B.heap.good.shape.dataKid d w s c h1 h2).2.2) hm' hs
    replace this := this.byAcc (AccLe.filter (o := o))
    simpa only [callAcc, callHead, callBody, ht, callO, List.flatMap_nil, List.nil_append] using this

theorem VStp.gm (S : VStp o v v' i cl cl' push U R N V) (B : v.c.BI) : GMv v.c.a v'.c.a (callAcc o v.c.a cl) U (N ++ entsT push) := by
  rcases S.how with ⟨t, ts, new, ht, e, rfl, rfl, rfl, rfl⟩ | ⟨n, ht, hs, rfl, rfl, rfl, rfl⟩
  · have := (gm_task e).byAcc (AccLe.filter (o := o))
    simp only [callAcc, ht]
    simpa [entsT] using this
  · have := (gm_pc (o := o) (Arc.GI.fresh B.gi) hs).byAcc (AccLe.filter (o := o))
    simpa only [callAcc, ht] using this

theorem VStp.body (S : VStp o v v' i cl cl' push U R N V) (B : v.c.BI) (hm : ∀ X ∈ callO cl, v.c.a.made X = true) {X : Obj} (hX : X ∈ callBody cl) :
    v.c.a.live X = true ∧ Has U (cl.bh v.c) X := by
  rcases S.how with ⟨t, ts, new, ht, e, rfl, rfl, rfl, rfl⟩ | ⟨n, ht, hs, rfl, rfl, rfl, rfl⟩
  · simp [callBody, ht] at hX
  · refine body_pc (B.calls i cl S.hi).1 (fun X hX => hm X (by simp [callO, hX])) hs ?_
    simpa only [callBody, ht] using hX

end

section
variable {v v' : VConf α} {o : Ords} {i : Nat} {cl cl' : Call α} {push : List Ent} {U R N : List AT} {V : View}

theorem preObj_make {a a' : Arena α} {X : Obj} : preObj a a' cl X = .make ↔ New a a' X := by
  simp only [preObj, New]
  split <;> (try split) <;> (try split) <;> simp_all

theorem preObj_body {a a' : Arena α} {X : Obj} (h : preObj a a' cl X = .body) : X ∈ callBody cl := by
  simp only [preObj] at h
  repeat' split at h <;> simp_all

theorem preObj_use {a a' : Arena α} {X : Obj} (h : preObj a a' cl X ≠ .none) : New a a' X ∨ X ∈ callHead a cl ++ callBody cl := by
  simp only [preObj, New] at h ⊢
  repeat' split at h <;> simp_all

theorem preObj_free {a a' : Arena α} {X : Obj} : preObj a a' cl X ≠ .free := by
  simp only [preObj]
  split <;> (try split) <;> (try split) <;> simp_all

theorem postObj_free {a a' : Arena α} {X : Obj} (h : postObj a a' X ≠ .none) : postObj a a' X = .free ∧ a.live X = true ∧ a'.live X = false := by
  simp only [postObj] at h ⊢
  split at h <;> simp_all

theorem postObj_only {a a' : Arena α} {X : Obj} {t : Touch} (h : postObj a a' X = t) : t = .none ∨ t = .free ∧ a.live X = true ∧ a'.live X = false := by
  simp only [postObj] at h
  split at h <;> simp_all

theorem PubI.step (I : PubI v) (S : VStp o v v' i cl cl' push U R N V) (B : v.c.BI) (ev : Evo v.c.a.b.sk v'.c.a.b.sk) : PubI v' := by
  have hcv : ∀ X ∈ callO cl, Kno v (v.cv i) X := fun X hX => I.call i cl X S.hi hX
  have hm : ∀ X ∈ callO cl, v.c.a.made X = true := fun X hX => I.knoMade (hcv X hX)
  have P := S.pm B hm
  have G := S.gm B
  have nV : v.log.length ∈ V := by rw [S.view]; exact Acc.runs_view (List.mem_cons_self ..)
  have cV : ∀ e ∈ v.cv i, e ∈ V := fun e h => S.in_V h
  have up : ∀ {W X}, Kno v W X → Kno v' W X := fun h => h.grow S.log
  -- objects made before
  have down : ∀ {W X}, v.c.a.made X = true → Kno v' W X → Kno v W X := by
    intro W X hX h
    refine h.old S.log fun f hf => ?_
    simp only [List.mem_append, List.mem_singleton] at hf
    rcases hf with rfl | rfl
    · intro h
      rw [(preObj_make.1 h).1] at hX; cases hX
    · intro h
      simpa using postObj_only h
  -- objects made by this step
  have fresh : ∀ {W X}, New v.c.a v'.c.a X → Kno v' W X → v.log.length ∈ W ∧ ∀ e ∈ v.cv i, e ∈ W := by
    rintro W X hX ⟨j, f, h1, h2, h3, h4⟩
    rcases S.logs h1 with ⟨_, h1⟩ | ⟨rfl, rfl⟩ | ⟨rfl, rfl⟩
    · have := I.made j f X h1 (by rw [h2]; simp)
      rw [hX.1] at this; cases this
    · exact ⟨h3, h4⟩
    · simpa using postObj_only h2
  have mk : ∀ {W X}, New v.c.a v'.c.a X → v.log.length ∈ W → (∀ e ∈ v.cv i, e ∈ W) → Kno v' W X := by
    intro W X hX h1 h2
    refine ⟨v.log.length, ⟨false, false, fun _ _ => false, preObj v.c.a v'.c.a cl, v.cv i⟩, ?_, preObj_make.2 hX, h1, h2⟩
    rw [S.log]; simp
  have usedK : ∀ {X}, X ∈ callHead v.c.a cl ++ callBody cl → Kno v (v.cv i) X := by
    intro X hX
    rcases P.use X hX with h | ⟨Y, h1, h2⟩
    · exact hcv X h
    · exact I.lnk Y X _ h2 (hcv Y h1)
  have got : ∀ X ∈ callO cl' ++ entsO push, Kno v' V X := by
    intro X hX
    cases P.refs X hX with
    | old h => exact up ((hcv X h).sub cV)
    | made h => exact mk h nV cV
    | lnk hY h => exact up (I.lnk _ X _ h ((hcv _ hY).sub cV))
    | @kid x c u s h hk hq =>
      obtain ⟨r, h1, h2⟩ := hq
      refine up ((I.kid x u s c h hk).sub fun e he => ?_)
      rw [S.view]; exact Acc.runs_acq (callAcc_store (by trivial)) h1 h2 he
    | @box x u hx h hq =>
      obtain ⟨r, h1, h2⟩ := hq
      refine up (I.box x u V h ((hcv _ hx).sub cV) fun e he => ?_)
      rw [S.view]; exact Acc.runs_acq (callAcc_store (by trivial)) h1 h2 he
  have mst : ∀ {l e}, l.isCnt → e ∈ v.m l → e ∈ v'.m l := by
    intro l e hl h
    rw [S.rel]; exact Acc.runs_rel (callAcc_store hl) h
  have mput : ∀ {l e}, l.isCnt → (∃ r ∈ callAcc o v.c.a cl, r.releases l) → e ∈ v.log.length :: v.cv i → e ∈ v'.m l := by
    rintro l e hl ⟨r, h1, h2⟩ h
    rw [S.rel]; exact Acc.runs_put (callAcc_store hl) h1 h2 h
  have aliveOld : ∀ X, v.c.a.made X = true → v'.c.a.live X = true → v.c.a.live X = true := by
    intro X h1 h2
    cases h : v.c.a.live X with
    | true => rfl
    | false => rw [P.dead X h1 h] at h2; cases h2
  have bor : ∀ {d g}, cl.bh v.c = some (.strong d g) → ∃ k en, v'.c.get k = some en ∧ en.h = .strong d g ∧ v.log.length ∈ v'.ha k := by
    intro d g h
    obtain ⟨k, b, h1, h2⟩ := Conf.bh_get h
    refine ⟨k, _, S.get_old h2, rfl, ?_⟩
    rw [S.ha]
    simp only [h1, if_true]
    exact View.mem_join.2 (.inr (List.mem_cons_of_mem _ nV))
  constructor
  case made =>
    intro j f X hj hf
    rcases S.logs hj with ⟨_, hj⟩ | ⟨rfl, rfl⟩ | ⟨rfl, rfl⟩
    · exact P.made X (I.made j f X hj hf)
    · rcases preObj_use hf with h | h
      · exact h.2
      · exact P.made X (I.knoMade (usedK h))
    · exact P.made X (live_made B (postObj_free hf).2.1)
  case first =>
    intro j1 j2 f1 f2 X hj h1 h2 hf
    rcases S.logs h2 with ⟨h3, h2⟩ | ⟨rfl, rfl⟩ | ⟨rfl, rfl⟩
    · rcases S.logs h1 with ⟨_, h1⟩ | ⟨rfl, rfl⟩ | ⟨rfl, rfl⟩
      · exact I.first j1 j2 f1 f2 X hj h1 h2 hf
      · omega
      · omega
    · rcases S.logs h1 with ⟨_, h1⟩ | ⟨rfl, rfl⟩ | ⟨rfl, rfl⟩
      · by_cases h : f1.obj X = .none
        · exact h
        · have := I.made j1 f1 X h1 h
          rw [(preObj_make.1 hf).1] at this; cases this
      · omega
      · omega
    · simpa using postObj_only hf
  case use =>
    intro j f X hj hf
    rcases S.logs hj with ⟨_, hj⟩ | ⟨rfl, rfl⟩ | ⟨rfl, rfl⟩
    · exact (I.use j f X hj hf).imp id up
    · rcases preObj_use hf with h | h
      · exact .inl (preObj_make.2 h)
      · exact .inr (up (usedK h))
    · obtain ⟨_, h1, h2⟩ := postObj_free hf
      exact .inr (up ((hcv X (P.kill X h1 h2)).sub cV))
  case call =>
    intro j clj X hj hX
    by_cases hij : j = i
    · subst hij
      rw [S.self] at hj; cases hj
      exact (got X (List.mem_append_left _ hX)).sub fun e he => S.cv_V (.inl he)
    · rw [S.other hij] at hj
      refine (up (I.call j clj X hj hX)).sub fun e he => S.in_cv he
  case ent =>
    intro k en X hk hX
    rcases S.get hk with h | ⟨h1, h2⟩
    · rw [S.hb_old h]; exact up (I.ent k en X h hX)
    · exact (got X (List.mem_append_right _ (List.mem_flatMap.2 ⟨en, h2, hX⟩))).sub fun e he => S.hb_V h1 (.inl he)
  case kid =>
    intro x u s c hx hk
    rcases P.kid x u s c hx hk with ⟨w, h1, h2⟩ | ⟨h1, h2⟩
    · exact (up (I.kid x w s c h1 h2)).sub fun e he => mst (by trivial) he
    · exact mk h1 (mput (by trivial) h2 (List.mem_cons_self ..)) fun e he => mput (by trivial) h2 (List.mem_cons_of_mem _ he)
  case box =>
    intro x u W hx hK hW
    rcases P.box x u hx with ⟨⟨w, h1⟩, h2 | ⟨h2, h3⟩⟩ | ⟨h1, h2⟩
    · rw [h2]
      exact up (I.box x w W h1 (down (node_made B.heap.base h1) hK) fun e he => hW e (mst (by trivial) he))
    · exact mk h2 (hW _ (mput (by trivial) h3 (List.mem_cons_self ..))) fun e he => hW _ (mput (by trivial) h3 (List.mem_cons_of_mem _ he))
    · obtain ⟨h3, h4⟩ := fresh h1 hK
      exact mk h2 h3 h4
  case lnk =>
    intro X Y W hl hK
    rcases P.lnk X Y hl with h | ⟨h1, h2⟩
    · exact up (I.lnk X Y W h (down (lnk_made B h) hK))
    · obtain ⟨h3, h4⟩ := fresh h1 hK
      rcases h2 with h2 | h2
      · exact mk h2 h3 h4
      · exact up ((hcv Y h2).sub h4)
  case bodyN =>
    intro j f x hj hf hl
    rcases S.logs hj with ⟨_, hj⟩ | ⟨rfl, rfl⟩ | ⟨rfl, rfl⟩
    · exact S.mono B ev (I.bodyN j f x hj hf (aliveOld _ (I.made j f _ hj (by rw [hf]; simp)) hl)) (Option.isSome_iff_exists.1 hl)
    · cases (S.body B hm (preObj_body hf)).2 with
      | node h => exact S.passN h (List.mem_cons_self ..) (Option.isSome_iff_exists.1 hl)
      | bnode h =>
        obtain ⟨k, en, h1, h2, h3⟩ := bor h
        exact .ent h1 (by simp [entT, h2]) (.inr h3)
    · simpa using postObj_only hf
  case bodyG =>
    intro j f x hj hf hl
    rcases S.logs hj with ⟨_, hj⟩ | ⟨rfl, rfl⟩ | ⟨rfl, rfl⟩
    · exact S.monoG G B (I.bodyG j f x hj hf (aliveOld _ (I.made j f _ hj (by rw [hf]; simp)) hl))
    · cases (S.body B hm (preObj_body hf)).2 with
      | guard h => exact S.passG G h (List.mem_cons_self ..)
      | bguard h =>
        obtain ⟨k, en, h1, h2, h3⟩ := bor h
        exact .ent h1 (by simp [entT, h2]) (.inr h3)
    · simpa using postObj_only hf
  case dead =>
    intro j f X hj hf
    rcases S.logs hj with ⟨_, hj⟩ | ⟨rfl, rfl⟩ | ⟨rfl, rfl⟩
    · exact P.dead X (I.made j f X hj (by rw [hf]; simp)) (I.dead j f X hj hf)
    · exact absurd hf preObj_free
    · exact (by simpa using postObj_only hf : v.c.a.live X = true ∧ v'.c.a.live X = false).2
  case gone =>
    intro j1 j2 f1 f2 X hj h1 h2 hf
    rcases S.logs h1 with ⟨_, h1⟩ | ⟨rfl, rfl⟩ | ⟨rfl, rfl⟩
    · rcases S.logs h2 with ⟨_, h2⟩ | ⟨rfl, rfl⟩ | ⟨rfl, rfl⟩
      · exact I.gone j1 j2 f1 f2 X hj h1 h2 hf
      · refine ⟨fun h => ?_, preObj_free⟩
        have h4 := I.dead j1 f1 X h1 hf
        rw [(S.body B hm (preObj_body h)).1] at h4; cases h4
      · refine ⟨fun h => by simpa using postObj_only h, fun h => ?_⟩
        have h4 := I.dead j1 f1 X h1 hf
        rw [(by simpa using postObj_only h : v.c.a.live X = true ∧ v'.c.a.live X = false).1] at h4; cases h4
    · exact absurd hf preObj_free
    · have := (List.getElem?_eq_some_iff.1 h2).1
      rw [S.log] at this
      simp at this; omega
  case order =>
    intro j1 j2 f1 f2 X hj h1 h2 ha hb hc
    rcases S.logs h2 with ⟨h3, h2⟩ | ⟨rfl, rfl⟩ | ⟨rfl, rfl⟩
    · rcases S.logs h1 with ⟨_, h1⟩ | ⟨rfl, rfl⟩ | ⟨rfl, rfl⟩
      · exact I.order j1 j2 f1 f2 X hj h1 h2 ha hb hc
      · omega
      · omega
    · rcases S.logs h1 with ⟨_, h1⟩ | ⟨rfl, rfl⟩ | ⟨rfl, rfl⟩
      · have h4 := I.dead j1 f1 X h1 (hb.resolve_right preObj_free)
        rw [(S.body B hm (preObj_body (hc.resolve_right preObj_free))).1] at h4; cases h4
      · omega
      · omega
    · obtain ⟨l1, l2⟩ : v.c.a.live X = true ∧ v'.c.a.live X = false := by rcases hc with h | h <;> simpa using postObj_only h
      rcases S.logs h1 with ⟨_, h1⟩ | ⟨rfl, rfl⟩ | ⟨rfl, rfl⟩
      · rcases ha with ha | ha
        · cases X with
          | node x =>
            obtain ⟨n, hn⟩ := Option.isSome_iff_exists.1 l1
            exact S.collect B hn (Option.not_isSome_iff_eq_none.1 (by simpa [Arena.live] using l2)) (I.bodyN j1 f1 x h1 ha l1)
          | guard g =>
            obtain ⟨n, hn⟩ := Option.isSome_iff_exists.1 l1
            exact S.collectG G B hn (Option.not_isSome_iff_eq_none.1 (by simpa [Arena.live] using l2)) (I.bodyG j1 f1 g h1 ha l1)
          | box b => 
            have := P.made (.box b) l1
            exact absurd (this.symm.trans l2) (by simp)
        · rw [I.dead j1 f1 X h1 ha] at l1; cases l1
      · exact nV
      · omega

end

/-! ## Starting calls -/

section
variable {v v' : VConf α}

/-- A new call points to what its handle does. -/
theorem start_refs {op : Op α} {X : View} (e : v.start op X = some v') {i : Nat} {cl : Call α} (hi : v'.c.calls[i]? = some cl) :
    v.c.calls[i]? = some cl ∨ callO cl = [] ∨ ∃ k en, v.c.get k = some en ∧ (∀ Y ∈ callO cl, Y ∈ entO en) ∧ ∀ e ∈ v.hb k, e ∈ v'.cv i := by
  obtain ⟨c', hc, h1, hcv⟩ : ∃ c', v.c.start op = some c' ∧ v'.c = c' ∧ ∀ {k}, op.arg = some k → ∀ e ∈ v.hb k, e ∈ v'.cv v.c.calls.length := by
    simp only [VConf.start] at e
    split at e
    · cases e
    next c' hc =>
    cases e
    refine ⟨c', hc, rfl, fun {k} hk e he => ?_⟩
    simp only [Nat.le_refl, if_true, hk]
    exact mem_knows.2 (.inr (.inl he))
  clear e
  rw [h1] at hi
  have T : ∀ {pc : Pc α} {ts : List ATask} {k : Nat} {en : Ent}, op.arg = some k → c' = v.c.taking op k pc ts → v.c.get k = some en →
      (∀ Y ∈ ts.flatMap ataskO ++ pcO pc, Y ∈ entO en) →
      v.c.calls[i]? = some cl ∨ callO cl = [] ∨ ∃ k en, v.c.get k = some en ∧ (∀ Y ∈ callO cl, Y ∈ entO en) ∧ ∀ e ∈ v.hb k, e ∈ v'.cv i := by
    intro pc ts k en ha hc' hk hO
    subst hc'
    rcases taking_calls hi with h | ⟨rfl, rfl⟩
    · exact .inl h
    · exact .inr (.inr ⟨k, en, hk, hO, hcv ha⟩)
  have Sh : ∀ {pc : Pc α} {k : Nat} {en : Ent}, op.arg = some k → c' = v.c.shared op k pc → v.c.get k = some en →
      (∀ Y ∈ pcO pc, Y ∈ entO en) →
      v.c.calls[i]? = some cl ∨ callO cl = [] ∨ ∃ k en, v.c.get k = some en ∧ (∀ Y ∈ callO cl, Y ∈ entO en) ∧ ∀ e ∈ v.hb k, e ∈ v'.cv i := by
    intro pc k en ha hc' hk hO
    subst hc'
    rcases shared_calls hi with h | ⟨rfl, rfl⟩
    · exact .inl h
    · exact .inr (.inr ⟨k, en, hk, hO, hcv ha⟩)
  cases SStep.of hc with
  | new xs =>
    rcases plain_calls hi with h | ⟨rfl, rfl⟩
    · exact .inl h
    · exact .inr (.inl rfl)
  | mutNew xs =>
    rcases plain_calls hi with h | ⟨rfl, rfl⟩
    · exact .inl h
    · exact .inr (.inl rfl)
  | weakNew => exact .inl hi
  | endMut k d g hk => exact .inl hi
  | clone k d g hk => exact Sh rfl rfl hk (by simp [pcO, entO])
  | cloneW k d g b hk => exact Sh rfl rfl hk (by simp [pcO, entO])
  | cloneSide s k d g hk => exact Sh rfl rfl hk (by simp [pcO, entO])
  | downgrade k d g hk => exact Sh rfl rfl hk (by simp [pcO, entO])
  | upgrade k d g b hk => exact Sh rfl rfl hk (by simp [pcO, entO])
  | getMut k d g hk hb => exact T rfl rfl hk (by simp [pcO, entO])
  | intoMut k d g hk hb => exact T rfl rfl hk (by simp [pcO, entO])
  | intoImmut k r b hk hb => exact T rfl rfl hk (by simp [pcO, entO])
  | splitOff s k r b hk hb => exact T rfl rfl hk (by simp [pcO, entO])
  | next en k r b hk hb => exact T rfl rfl hk (by simp [pcO, entO])
  | cut en n k r b hk hb => exact T rfl rfl hk (by simp [pcO, entO])
  | dropS k d g hk hb => exact T rfl rfl hk (by simp [pcO, entO, ataskO])
  | dropW k d g b hk hb => exact T rfl rfl hk (by simp [pcO, entO])
  | dropU k r b hk hb => exact T rfl rfl hk (by simp [pcO, entO, ataskO, taskO])

theorem PubI.start {op : Op α} {X : View} (I : PubI v) (e : v.start op X = some v') : PubI v' := by
  have S : VSta true v v' := .of e
  have up : ∀ {W X}, Kno v W X → Kno v' W X := fun h => h.grow (new := []) (by rw [S.log]; simp)
  have down : ∀ {W X}, Kno v' W X → Kno v W X := fun h => h.old (new := []) (by rw [S.log]; simp) (fun _ h => by cases h)
  constructor
  case made => rw [S.log, S.a]; exact I.made
  case first => rw [S.log]; exact I.first
  case use => rw [S.log]; exact fun j f X h1 h2 => (I.use j f X h1 h2).imp id up
  case call =>
    intro i cl Y hi hY
    rcases start_refs e hi with h | h | ⟨k, en, h1, h2, h3⟩
    · obtain ⟨_, h2⟩ := S.call i cl h
      rw [h2]; exact up (I.call i cl Y h hY)
    · rw [h] at hY; cases hY
    · exact (up (I.ent k en Y h1 (h2 Y hY))).sub h3
  case ent =>
    intro k en Y hk hY
    rcases S.ent' k en hk with ⟨en', h1, h2⟩ | ⟨h1, h2⟩
    · rw [S.hb k (Conf.get_lt h1)]
      refine up (I.ent k en' Y h1 ?_)
      simp only [entO, h2] at hY ⊢; exact hY
    · simp [entO, h2] at hY
  case kid => rw [S.a, S.m]; exact fun x u s c h1 h2 => up (I.kid x u s c h1 h2)
  case box => rw [S.a, S.m]; exact fun x u V h1 h2 h3 => up (I.box x u V h1 (down h2) h3)
  case lnk => rw [S.a]; exact fun X Y V h1 h2 => up (I.lnk X Y V h1 (down h2))
  case bodyN => rw [S.log, S.a]; exact fun i ev x h1 h2 h3 => S.kn (I.bodyN i ev x h1 h2 h3)
  case bodyG => rw [S.log, S.a]; exact fun i ev x h1 h2 h3 => S.knG (I.bodyG i ev x h1 h2 h3)
  case dead => rw [S.log, S.a]; exact I.dead
  case gone => rw [S.log]; exact I.gone
  case order => rw [S.log]; exact I.order

/-! ## Reading and writing items -/

theorem handleObj_only {h : Handle} {X : Obj} {t : Touch} (e : handleObj h X = t) : t = .none ∨ t = .body ∧ ∃ d g, h = .strong d g ∧ X = .node d := by
  simp only [handleObj] at e
  split at e
  · split at e
    · next hX => exact .inr ⟨e.symm, _, _, rfl, hX⟩
    · exact .inl e.symm
  · exact .inl e.symm

/-- Only items, and what is known, change. -/
structure PSame (a a' : Arena α) : Prop where
  sk : a'.b.sk = a.b.sk
  par : a'.par = a.par
  box : a'.box = a.box
  nbox : a'.nbox = a.nbox
  tgt : a'.tgt = a.tgt
  ng : a'.ng = a.ng
  gOf : a'.gOf = a.gOf
  guard : a'.guard = a.guard

theorem PSame.lnk {a a' : Arena α} (s : PSame a a') {X Y : Obj} (h : Lnk a' X Y) : Lnk a X Y := by
  cases h with
  | alloc h hl => exact .alloc (s.sk ▸ h) hl
  | par h h' => exact .par (s.sk ▸ h) (s.par ▸ h')
  | tgt h h' => exact .tgt (s.nbox ▸ h) (s.tgt ▸ h')
  | gpar h h' => exact .gpar (s.guard ▸ h) h'
  | gof h => rw [s.gOf]; exact .gof (s.ng ▸ h)

theorem PSame.made {a a' : Arena α} (s : PSame a a') (X : Obj) : a'.made X = a.made X := by
  cases X <;> simp only [Arena.made, s.sk, s.ng, s.nbox]

theorem PSame.live {a a' : Arena α} (s : PSame a a') (X : Obj) : a'.live X = a.live X := by
  cases X <;> simp only [Arena.live, s.sk, s.guard, s.nbox]

/-- Items are accessed through handle `k`. -/
theorem PubI.access (I : PubI v) (B : v.c.BI) {k : Nat} {en : Ent} {f : Ev} (hk : v.c.get k = some en) (g : VGrow v v') (s : PSame v.c.a v'.c.a)
    (hl : v'.log = v.log ++ [f]) (hf : f.obj = handleObj en.h) (hv : ∀ e ∈ v.hb k, e ∈ f.view) (hn : v.log.length ∈ v'.hb k ∨ v.log.length ∈ v'.ha k) :
    PubI v' := by
  have up : ∀ {W X}, Kno v W X → Kno v' W X := fun h => h.grow hl
  have down : ∀ {W X}, Kno v' W X → Kno v W X := fun h => h.old hl fun f' h => by
    rw [List.mem_singleton] at h
    subst h
    rw [hf]; intro h
    simpa using handleObj_only h
  have logs : ∀ {j : Nat} {f' : Ev}, v'.log[j]? = some f' → v.log[j]? = some f' ∧ j < v.log.length ∨ j = v.log.length ∧ f' = f := by
    intro j f' h
    rw [hl] at h
    rcases append_call h with h | h
    · exact .inl ⟨h, (List.getElem?_eq_some_iff.1 h).1⟩
    · exact .inr h
  have live : ∀ {d w}, en.h = .strong d w → v.c.a.live (.node d) = true := by
    intro d w h
    have : d ∈ aS v.c.T := ref_mem_aS (Conf.get_tok' hk (by simp [entT, h]))
    obtain ⟨n, hn⟩ := B.heap.live this
    simp [Arena.live, hn]
  have gt := g.get k
  constructor
  case made =>
    intro j f' X hj h
    rw [s.made]
    rcases logs hj with ⟨hj, _⟩ | ⟨rfl, rfl⟩
    · exact I.made j f' X hj h
    · rw [hf] at h
      rcases handleObj_only (h := en.h) (X := X) rfl with h' | ⟨_, d, w, h1, rfl⟩
      · exact absurd h' h
      · exact live_made B (live h1)
  case first =>
    intro j1 j2 f1 f2 X hj h1 h2 h3
    rcases logs h2 with ⟨h2, _⟩ | ⟨rfl, rfl⟩
    · rcases logs h1 with ⟨h1, _⟩ | ⟨rfl, rfl⟩
      · exact I.first j1 j2 f1 f2 X hj h1 h2 h3
      · omega
    · rw [hf] at h3
      simpa using handleObj_only h3
  case use =>
    intro j f' X hj h
    rcases logs hj with ⟨hj, _⟩ | ⟨rfl, rfl⟩
    · exact (I.use j f' X hj h).imp id up
    · rw [hf] at h
      rcases handleObj_only (h := en.h) (X := X) rfl with h' | ⟨_, d, w, h1, rfl⟩
      · exact absurd h' h
      · exact .inr (up ((I.ent k en _ hk (by simp [entO, h1])).sub hv))
  case call => rw [g.calls, g.cv]; exact fun i cl X h1 h2 => up (I.call i cl X h1 h2)
  case ent =>
    intro k' en' X h1 h2
    rw [g.get] at h1
    exact (up (I.ent k' en' X h1 h2)).sub (g.hb k')
  case kid => rw [g.sk, g.m]; exact fun x u s c h1 h2 => up (I.kid x u s c h1 h2)
  case box => rw [g.sk, g.m, s.box]; exact fun x u V h1 h2 h3 => up (I.box x u V h1 (down h2) h3)
  case lnk => exact fun X Y V h1 h2 => up (I.lnk X Y V (s.lnk h1) (down h2))
  case bodyN =>
    intro j f' x hj h hx
    rw [s.live] at hx
    rcases logs hj with ⟨hj, _⟩ | ⟨rfl, rfl⟩
    · exact g.kn (I.bodyN j f' x hj h hx)
    · rw [hf] at h
      obtain ⟨d, w, h1, h2⟩ : ∃ d w, en.h = .strong d w ∧ Obj.node x = .node d := by simpa using handleObj_only h
      cases h2
      exact .ent (gt.trans hk) (by simp [entT, h1]) hn
  case bodyG =>
    intro j f' x hj h hx
    rw [s.live] at hx
    rcases logs hj with ⟨hj, _⟩ | ⟨rfl, rfl⟩
    · exact g.knG s.guard (I.bodyG j f' x hj h hx)
    · rw [hf] at h
      simpa using handleObj_only h
  case dead =>
    intro j f' X hj h
    rw [s.live]
    rcases logs hj with ⟨hj, _⟩ | ⟨rfl, rfl⟩
    · exact I.dead j f' X hj h
    · rw [hf] at h
      simpa using handleObj_only h
  case gone =>
    intro j1 j2 f1 f2 X hj h1 h2 h3
    rcases logs h1 with ⟨h1, _⟩ | ⟨rfl, rfl⟩
    · rcases logs h2 with ⟨h2, _⟩ | ⟨rfl, rfl⟩
      · exact I.gone j1 j2 f1 f2 X hj h1 h2 h3
      · rw [hf]
        refine ⟨fun h => ?_, fun h => by simpa using handleObj_only h⟩
        obtain ⟨d, w, h4, h5⟩ : ∃ d w, en.h = .strong d w ∧ X = .node d := by simpa using handleObj_only h
        have := I.dead j1 f1 X h1 h3
        rw [h5, live h4] at this; cases this
    · rw [hf] at h3
      simpa using handleObj_only h3
  case order =>
    intro j1 j2 f1 f2 X hj h1 h2 ha hb hc
    rcases logs h2 with ⟨h2, _⟩ | ⟨rfl, rfl⟩
    · rcases logs h1 with ⟨h1, _⟩ | ⟨rfl, rfl⟩
      · exact I.order j1 j2 f1 f2 X hj h1 h2 ha hb hc
      · omega
    · rcases logs h1 with ⟨h1, _⟩ | ⟨rfl, rfl⟩
      · rw [hf] at hb hc
        have nf : handleObj en.h X ≠ .free := fun h => by simpa using handleObj_only h
        obtain ⟨d, w, h3, h4⟩ : ∃ d w, en.h = .strong d w ∧ X = .node d := by simpa using handleObj_only (hc.resolve_right nf)
        have := I.dead j1 f1 X h1 (hb.resolve_right nf)
        rw [h4, live h3] at this; cases this
      · omega

theorem PubI.read {k j : Nat} {X : View} (I : PubI v) (B : v.c.BI) (e : v.read k j X = some v') : PubI v' := by
  simp only [VConf.read] at e
  split at e
  · cases e
  next en hk =>
  split at e
  · next b off len hr =>
    split at e
    · next hj =>
      cases e
      refine I.access B hk ⟨rfl, rfl, rfl, rfl, rfl, ?_, ?_⟩ ⟨rfl, rfl, rfl, rfl, rfl, rfl, rfl, rfl⟩ rfl rfl (fun e he => mem_knows.2 (.inr (.inl he))) ?_
      · intro k' e he
        simp only
        split
        · by_cases h : k' = k
          · subst h
            rw [upd_same]
            exact List.mem_cons_of_mem _ (mem_knows.2 (.inr (.inl he)))
          · rw [upd_ne _ _ h]; exact he
        · exact he
      · intro k' e he
        simp only
        split
        · exact he
        · by_cases h : k' = k
          · subst h
            rw [upd_same]
            exact View.mem_join.2 (.inl he)
          · rw [upd_ne _ _ h]; exact he
      · cases hw : Conf.writable en with
        | true =>
          left
          simp only [if_true, upd_same]
          exact List.mem_cons_self ..
        | false =>
          right
          simp only [Bool.false_eq_true, if_false, upd_same]
          exact View.mem_join.2 (.inr (List.mem_cons_self ..))
    · cases e
  · cases e

theorem write_psame {c c' : Conf α} {en : Ent} {j : Nat} {x : α} (h : c.write en j x = .ok c') : PSame c.a c'.a := by
  rcases Conf.write_cases h with rfl | ⟨b, i, rfl⟩
  · exact ⟨rfl, rfl, rfl, rfl, rfl, rfl, rfl, rfl⟩
  · exact ⟨rfl, rfl, rfl, rfl, rfl, rfl, rfl, rfl⟩

theorem PubI.write {k j : Nat} {x : α} {X : View} (I : PubI v) (B : v.c.BI) (e : v.write k j x X = some (.ok v')) : PubI v' := by
  simp only [VConf.write] at e
  split at e
  · cases e
  next en hk =>
  split at e
  · next b off len hr =>
    split at e
    · next hj =>
      simp only [Option.some.injEq] at e
      obtain ⟨c', e1, e2⟩ := bind_ok e
      cases pure_ok e2
      obtain ⟨s1, s2, s3⟩ := write_same e1
      refine I.access B hk ⟨s1, s2, s3, rfl, rfl, ?_, fun _ _ h => h⟩ (write_psame e1) rfl rfl (fun e he => mem_knows.2 (.inr (.inl he))) (.inl ?_)
      · intro k' e he
        by_cases h : k' = k
        · subst h
          simp only [upd_same]
          exact List.mem_cons_of_mem _ (mem_knows.2 (.inr (.inl he)))
        · simp only [upd_ne _ _ h]; exact he
      · simp only [upd_same]
        exact List.mem_cons_self ..
    · cases e
  · cases e

end
end Verif.Arc
