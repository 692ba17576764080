import Verif.Arc.Proofs.SeqFam
/-!
# Threads at rest

Ranges stay within their boxes, whatever threads do. So whenever all calls have returned, there
is a state of the specification that belongs to the state of the code.
-/

namespace Verif.Arc
open Verif.Spec (Side Slot Family Rng End Hand World Obs)
open Verif.Rc
variable {α : Type}

/-! ## Ranges are within their boxes -/

def FamIn (k : Skel) : Prop := ∀ f, f < k.nfam → RngIn k (k.fams f).buf (k.fams f).rng

def entR (k : Skel) : Handle → Prop
  | .strong _ _ => True
  | .weak d g => d = none → g = none
  | .uniq r => RngIn k r.buf ⟨r.off, r.len⟩

def pcR (k : Skel) : Pc α → Prop
  | .immut r | .split _ r | .nxt _ r | .cut _ _ r | .imFg _ _ r _ | .imGate _ r _ | .imOk r _ => RngIn k r.buf ⟨r.off, r.len⟩
  | .wc d g => d = none → g = none
  | _ => True

/-- Boxes and families that were there are there. -/
structure Wide (k k' : Skel) : Prop where
  nbuf : k.nbuf ≤ k'.nbuf
  blen : ∀ b, b < k.nbuf → k'.blen b = k.blen b

theorem Wide.refl (k : Skel) : Wide k k := ⟨Nat.le_refl _, fun _ _ => rfl⟩

theorem Wide.trans {a b c : Skel} (h1 : Wide a b) (h2 : Wide b c) : Wide a c :=
  ⟨Nat.le_trans h1.nbuf h2.nbuf, fun x h => (h2.blen x (Nat.lt_of_lt_of_le h h1.nbuf)).trans (h1.blen x h)⟩

theorem Wide.keep {h h' : Heap α} (k : Keep h h') : Wide h.sk h'.sk := ⟨by rw [k.nbuf]; exact Nat.le_refl _, fun b _ => by rw [k.blen]⟩

theorem Wide.grow {k k' : Skel} (g : Grow k k') : Wide k k' := ⟨g.nbuf, g.blen⟩

theorem _root_.Verif.Rc.RngIn.wide {k k' : Skel} (g : Wide k k') {b : Nat} {r : Rng} (h : RngIn k b r) : RngIn k' b r := by
  rcases h with ⟨h1, h2⟩ | h
  · exact .inl ⟨Nat.lt_of_lt_of_le h1 g.nbuf, by rw [g.blen b h1]; exact h2⟩
  · exact .inr h

theorem entR.wide {k k' : Skel} (g : Wide k k') {h : Handle} (e : entR k h) : entR k' h := by
  cases h with
  | strong => trivial
  | weak => exact e
  | uniq r => exact RngIn.wide g e

theorem pcR.wide {k k' : Skel} (g : Wide k k') {p : Pc α} (e : pcR k p) : pcR k' p := by
  cases p with
  | immut | split | nxt | cut | imFg | imGate | imOk => exact RngIn.wide g e
  | wc => exact e
  | _ => trivial

theorem FamIn.keep {h h' : Heap α} (k : Keep h h') (F : FamIn h.sk) : FamIn h'.sk := by
  intro f hf
  rw [k.nfam] at hf; rw [k.fams]
  exact (F f hf).wide (.keep k)

theorem FamIn.data {h : Heap α} {T : List AT} (F : FamIn h.sk) (I : HInv h T) {d : Nat} {v : DataV} (hd : h.sk.node d = some (.data v)) :
    RngIn h.sk v.buf ⟨v.off, v.len⟩ := by
  obtain ⟨a1, a2, _⟩ := I.good.shape.dataFam d v hd
  have hf := I.good.shape.famLt d (I.good.ledger.lt hd) (by rw [I.good.shape.kinds _ _ hd]; simp [Node.kind])
  have h1 := F _ hf
  rw [← a1] at h1
  refine h1.sub ?_
  have := at_sub (r := (h.sk.fams (h.sk.lab d).fam).rng) [] (h.sk.lab d).path
  rw [List.append_nil, ← a2] at this
  exact this.2

structure Conf.RI (c : Conf α) : Prop where
  fams : FamIn c.a.b.sk
  ents : ∀ k e, c.get k = some e → entR c.a.b.sk e.h
  calls : ∀ (i : Nat) cl, c.calls[i]? = some cl → pcR c.a.b.sk cl.pc

theorem FamIn.root {a : Arena α} {r : Reg} (F : FamIn a.b.sk) (h : RngIn a.b.sk r.buf ⟨r.off, r.len⟩) : FamIn (a.root r).1.b.sk := by
  have g := root_grow a r
  intro f hf
  by_cases hlt : f < a.b.sk.nfam
  · rw [g.fams f hlt]; exact (F f hlt).wide (.grow g)
  · have : f = a.b.sk.nfam := by
      have : f < a.b.sk.nfam + 1 := hf
      omega
    subst this
    have e : (a.root r).1.b.sk.fams a.b.sk.nfam = ⟨r.buf, ⟨r.off, r.len⟩, r.alloc.isSome⟩ := upd_same _ a.b.sk.nfam _
    rw [e]; exact h.wide (.grow g)

theorem wide_newBuf (h : Heap α) (xs : List α) : Wide h.sk (newBuf h xs).1.sk :=
  ⟨Nat.le_succ _, fun b hb => by simp only [newBuf]; rw [upd_ne _ _ (by omega)]⟩

theorem newBuf_in (h : Heap α) (xs : List α) {n : Nat} (hn : n ≤ xs.length) : RngIn (newBuf h xs).1.sk (newBuf h xs).2 ⟨0, n⟩ :=
  .inl ⟨Nat.lt_succ_self _, by simp only [newBuf]; rw [upd_same]; omega⟩

theorem FamIn.newBuf {h : Heap α} {xs : List α} (F : FamIn h.sk) : FamIn (newBuf h xs).1.sk :=
  fun f hf => (F f hf).wide (wide_newBuf h xs)

/-- One step of a call. -/
theorem ri_pc {a a' : Arena α} {T : List AT} {pc : Pc α} {n : Next α} (F : FamIn a.b.sk) (I : HInv a.b (pcT pc ++ T)) (hp : pcR a.b.sk pc)
    (e : PStep a pc a' n) : FamIn a'.b.sk ∧ Wide a.b.sk a'.b.sk ∧ pcR a'.b.sk n.pc ∧ ∀ x ∈ n.push, entR a'.b.sk x.h := by
  have kp : calm pc → FamIn a'.b.sk ∧ Wide a.b.sk a'.b.sk := fun h => ⟨F.keep (keep_pc I e h), .keep (keep_pc I e h)⟩
  cases e with
  | new0 xs hl r a1 d hr e =>
    have ea : a' = ((a.withB (newBuf a.b xs).1).root r).1 := by rw [e]
    subst ea
    have h1 : FamIn (a.withB (newBuf a.b xs).1).b.sk := F.newBuf
    exact ⟨h1.root (by rw [hr]; exact newBuf_in a.b xs (Nat.zero_le _)), (wide_newBuf a.b xs).trans (.grow (root_grow (a.withB (newBuf a.b xs).1) r)), trivial, by simp⟩
  | new1 xs hl r h1 al a1 d eh hr e =>
    have ea : a' = ((a.withB h1).root r).1 := by rw [e]
    have eh1 : h1 = ((newBuf a.b xs).1.rcNew (.alloc (newBuf a.b xs).2) ⟨0, []⟩).1 := by rw [eh]
    subst ea
    have hw : Wide (newBuf a.b xs).1.sk (a.withB h1).b.sk := by rw [eh1]; exact ⟨Nat.le_refl _, fun _ _ => rfl⟩
    have h2 : FamIn (a.withB h1).b.sk := by rw [eh1]; exact (F.newBuf : FamIn (newBuf a.b xs).1.sk)
    exact ⟨h2.root (by rw [hr]; exact (newBuf_in a.b xs (Nat.le_refl _)).wide hw), ((wide_newBuf a.b xs).trans hw).trans (.grow (root_grow (a.withB h1) r)), trivial, by simp⟩
  | mutNew xs h r e =>
    simp only [mutFromBox] at e
    split at e <;> cases e
    · exact ⟨F.newBuf, wide_newBuf a.b xs, trivial, by
        intro x hx; simp only [List.mem_singleton] at hx; subst hx; exact newBuf_in a.b xs (Nat.le_refl _)⟩
    · exact ⟨(F.newBuf : FamIn (newBuf a.b xs).1.sk), (wide_newBuf a.b xs).trans ⟨Nat.le_refl _, fun _ _ => rfl⟩, trivial, by
        intro x hx; simp only [List.mem_singleton] at hx; subst hx; exact newBuf_in a.b xs (Nat.le_refl _)⟩
  | immut r a1 d e => cases e; exact ⟨F.root hp, .grow (root_grow _ _), trivial, by simp⟩
  | split s r h new rest e =>
    obtain ⟨h1, h2⟩ := kp trivial
    refine ⟨h1, h2, trivial, fun x hx => ?_⟩
    have hq := RngIn.wide h2 hp
    simp only [regSplitOff] at e
    have hsh : r.len >>> 1 ≤ r.len := by rw [Nat.shiftRight_eq_div_pow]; omega
    split at e <;>
    · obtain ⟨h3, e1, e2⟩ := bind_ok e
      cases pure_ok e2
      simp only [List.mem_cons, List.not_mem_nil, or_false] at hx
      rcases hx with rfl | rfl <;> refine RngIn.sub hq ?_ <;> simp only <;> omega
  | nxt en r h o r' ts re hre e =>
    have sk : h.sk = a.b.sk ∧ r'.buf = r.buf ∧ r'.off + r'.len ≤ r.off + r.len := by
      simp only [iterNext] at e
      split at e
      · cases e; exact ⟨rfl, rfl, Nat.le_refl _⟩
      · split at e
        · cases e
        · split at e
          · cases en <;> simp only at e <;> split at e <;> cases e <;> refine ⟨rfl, rfl, ?_⟩ <;> simp only <;> omega
          · cases e
    have ek : (a.withB h).b.sk = a.b.sk := sk.1
    refine ⟨by rw [ek]; exact F, by rw [ek]; exact .refl _, trivial, fun x hx => ?_⟩
    simp only [List.mem_singleton] at hx; subst hx
    rw [ek]
    show RngIn _ r'.buf _
    rw [sk.2.1]
    exact RngIn.sub hp sk.2.2
  | cutF n r h new rest hn e =>
    obtain ⟨h1, h2⟩ := kp trivial
    have hp := RngIn.wide h2 hp
    refine ⟨h1, h2, trivial, fun x hx => ?_⟩
    simp only [List.mem_cons, List.not_mem_nil, or_false] at hx
    obtain ⟨⟨h3, a1, a2⟩, e1, e2⟩ := bind_ok e
    cases pure_ok e2
    rcases hx with rfl | rfl <;> refine RngIn.sub hp ?_ <;> simp only <;> omega
  | cutB n r h new rest hn e =>
    obtain ⟨h1, h2⟩ := kp trivial
    have hp := RngIn.wide h2 hp
    refine ⟨h1, h2, trivial, fun x hx => ?_⟩
    simp only [List.mem_cons, List.not_mem_nil, or_false] at hx
    obtain ⟨⟨h3, a1, a2⟩, e1, e2⟩ := bind_ok e
    cases pure_ok e2
    rcases hx with rfl | rfl <;> refine RngIn.sub hp ?_ <;> simp only <;> omega
  | cutNo en n r hn =>
    exact ⟨F, .refl _, trivial, fun x hx => by simp only [List.mem_singleton] at hx; subst hx; exact hp⟩
  | im2 d g v hd hc =>
    obtain ⟨h1, h2⟩ := kp trivial
    exact ⟨h1, h2, RngIn.wide h2 (F.data I (getData_some hd)), by simp⟩
  | imFg0 g r acc => exact ⟨F, .refl _, hp, by simp⟩
  | imKid c todo g r acc v hd hc =>
    obtain ⟨h1, h2⟩ := kp trivial
    exact ⟨h1, h2, RngIn.wide h2 hp, by simp⟩
  | imKidNo => exact ⟨F, .refl _, hp, by simp⟩
  | imVal => exact ⟨F, .refl _, hp, by simp⟩
  | imGate => exact ⟨F, .refl _, hp, by simp⟩
  | imOk r acc => exact ⟨F, .refl _, trivial, fun x hx => by simp only [List.mem_singleton] at hx; subst hx; exact hp⟩
  | wcN d => exact ⟨F, .refl _, trivial, fun x hx => by simp only [List.mem_singleton] at hx; subst hx; exact fun _ => rfl⟩
  | wc d g hg => exact ⟨F, .refl _, trivial, fun x hx => by simp only [List.mem_singleton] at hx; subst hx; exact hp⟩
  | dg1 d g v hv =>
    exact ⟨F, .refl _, trivial, fun x hx => by simp only [List.mem_singleton] at hx; subst hx; exact fun h => by cases h⟩
  | _ =>
    obtain ⟨h1, h2⟩ := kp trivial
    refine ⟨h1, h2, trivial, fun x hx => ?_⟩
    first
      | (exact absurd hx (List.not_mem_nil))
      | (simp only [List.mem_singleton] at hx; subst hx; trivial)

theorem writeItem_sk {h h' : Heap α} {b i : Nat} {x : α} (e : writeItem h b i x = .ok h') : h'.sk = h.sk := by
  simp only [writeItem] at e
  split at e
  · cases e
  · split at e <;> cases e
    rfl

section
variable {c c' : Conf α} {P : Rules α} {zst : Bool}

theorem Conf.RI.step {i : Nat} (R : c.RI) (B : c.BI) (h : c.step i = .ok c') : c'.RI := by
  have key : ∀ {cl cl' : Call α} {a' : Arena α} {new : List Ent}, c.calls[i]? = some cl → FamIn a'.b.sk → Wide c.a.b.sk a'.b.sk →
      pcR a'.b.sk cl'.pc → (∀ e ∈ new, entR a'.b.sk e.h) → (c.after i a' cl' new).RI := by
    intro cl cl' a' new hi F W h1 h3
    refine ⟨F, fun k e hk => ?_, fun j clj hj => ?_⟩
    · rcases after_get hk with hk | ⟨_, hk⟩
      · exact (R.ents k e hk).wide W
      · exact h3 e hk
    · rcases after_calls hi hj with ⟨rfl, rfl⟩ | ⟨_, hj⟩
      · exact h1
      · exact (R.calls j clj hj).wide W
  cases CStep.of h with
  | none h => exact R
  | task cl t ts a' new hi ht e =>
    have I : HInv c.a.b (ataskT t ++ (ts.flatMap ataskT ++ (pcT cl.pc ++ c.rest i))) := by
      refine (B.heap.perm (Conf.T_perm hi)).count fun t ht' => ?_
      simp only [callT, ht, List.flatMap_cons, List.append_assoc]
    have K := keep_task I ((B.calls i cl hi).2 t (by simp [ht])) e
    exact key hi (R.fams.keep K) (.keep K) ((R.calls i cl hi).wide (.keep K)) (by simp)
  | pc cl a' n hi ht e =>
    have I : HInv c.a.b (pcT cl.pc ++ c.rest i) := by
      refine (B.heap.perm (Conf.T_perm hi)).count fun t ht' => ?_
      simp only [callT, ht, List.flatMap_nil, List.nil_append]
    obtain ⟨h1, h2, h3, h4⟩ := ri_pc R.fams I (R.calls i cl hi) (.of e)
    exact key hi h1 h2 h3 h4

theorem Conf.RI.start {op : Op α} (R : c.RI) (h : c.start op = some c') : c'.RI := by
  have ea := (Conf.start_T h).2
  have hs := SStep.of h
  refine ⟨by rw [ea]; exact R.fams, fun k e hk => ?_, fun j cl hj => ?_⟩
  · rw [ea]
    rcases start_get hs hk with h | ⟨_, _, rfl⟩ | ⟨d, g, _, h1, rfl⟩
    · exact R.ents k e h
    · exact fun _ => rfl
    · trivial
  · rw [ea]
    rcases start_call hs hj with h | ⟨_, _, _, h⟩
    · exact R.calls j cl h
    · rcases h with ⟨_, hp, ht, _⟩ | ⟨_, hp, ht, _⟩ | ⟨k, d, g, hk, _, _, ht, hp⟩ | ⟨k, d, g, b, hk, _, _, ht, hp⟩ |
        ⟨k, d, g, hk, _, _, _, hp⟩ | ⟨k, d, g, b, hk, _, _, _, _, hp, ht⟩ | ⟨k, r, b, hk, _, _, _, hp⟩
      · rw [hp]; trivial
      · rw [hp]; trivial
      · rcases hp with ⟨_, hp⟩ | ⟨s, _, hp⟩ | ⟨_, hp⟩ <;> rw [hp] <;> trivial
      · have he := R.ents k _ hk
        rcases hp with ⟨_, hp⟩ | ⟨_, hp⟩ <;> rw [hp]
        · exact he
        · trivial
      · rcases hp with ⟨_, hp, ht⟩ | ⟨_, hp, ht⟩ | ⟨_, hp, ht⟩ <;> rw [hp] <;> trivial
      · rw [hp]; trivial
      · have he := R.ents k _ hk
        rcases hp with ⟨_, hp, ht⟩ | ⟨_, _, hp, ht⟩ | ⟨_, _, hp, ht⟩ | ⟨_, _, _, hp, ht⟩ | ⟨_, hp, ht⟩ <;> rw [hp] <;> first | exact he | trivial

theorem Conf.Reach.RI (hP : Tame P) (h : Conf.Reach P zst c) : c.RI := by
  induction h with
  | init => exact ⟨fun f hf => absurd hf (Nat.not_lt_zero _), fun k e hk => (by cases hk), fun i cl hi => (by cases hi)⟩
  | run h i e ih => exact ih.step (h.BI hP) e
  | start h op hp e ih => exact ih.start e
  | write h k en j x hk hw e ih =>
    obtain ⟨o, e1, e2⟩ := bind_ok e
    cases o with
    | none => cases pure_ok e2; exact ih
    | some t =>
      obtain ⟨b, off, len⟩ := t
      simp only at e2
      split at e2
      · obtain ⟨h', e3, e4⟩ := bind_ok e2
        cases pure_ok e4
        have sk : h'.sk = _ := writeItem_sk e3
        refine ⟨?_, ?_, ?_⟩
        · show FamIn h'.sk; rw [sk]; exact ih.fams
        · intro k e hk; show entR h'.sk _; rw [sk]; exact ih.ents k e hk
        · intro i cl hi; show pcR h'.sk _; rw [sk]; exact ih.calls i cl hi
      · cases pure_ok e2; exact ih

/-- The lengths of boxes are bounded. -/
def Bounded (k : Skel) : Prop := ∃ u, ∀ b, k.blen b ≤ u

theorem Bounded.newBuf {h : Heap α} {xs : List α} (F : Bounded h.sk) : Bounded (newBuf h xs).1.sk := by
  obtain ⟨u, hu⟩ := F
  refine ⟨u + xs.length, fun b => ?_⟩
  show upd h.sk.blen h.sk.nbuf xs.length b ≤ _
  simp only [upd]
  split
  · omega
  · have := hu b; omega

theorem bounded_pc {a a' : Arena α} {T : List AT} {pc : Pc α} {n : Next α} (F : Bounded a.b.sk) (I : HInv a.b (pcT pc ++ T)) 
    (e : PStep a pc a' n) : Bounded a'.b.sk := by
  have kp : calm pc → Bounded a'.b.sk := fun h => by
    obtain ⟨u, hu⟩ := F
    exact ⟨u, by rw [(keep_pc I e h).blen]; exact hu⟩
  have hb := @Bounded.newBuf α
  cases e with
  | new0 xs hl r a1 d hr e => cases e; exact hb F
  | new1 xs hl r h1 al a1 d eh hr e => cases e; cases eh; exact hb F
  | mutNew xs h r e =>
    simp only [mutFromBox] at e
    split at e <;> cases e <;> exact hb F
  | immut r a1 d e => cases e; exact F
  | nxt en r h o r' ts re hre e =>
    have sk : h.sk = a.b.sk := by
      simp only [iterNext] at e
      split at e
      · cases e; rfl
      · split at e
        · cases e
        · split at e
          · cases en <;> simp only at e <;> split at e <;> cases e <;> rfl
          · cases e
    show Bounded h.sk
    rw [sk]; exact F
  | _ => exact kp trivial

theorem Conf.Reach.bounded (hP : Tame P) (h : Conf.Reach P zst c) : Bounded c.a.b.sk := by
  induction h with
  | init => exact ⟨0, fun _ => Nat.le_refl _⟩
  | @run c _ h i e ih =>
    have B := h.BI hP
    cases CStep.of e with
    | none h => exact ih
    | task cl t ts a' new hi ht e2 =>
      have I : HInv c.a.b (ataskT t ++ (ts.flatMap ataskT ++ (pcT cl.pc ++ c.rest i))) := by
        refine (B.heap.perm (Conf.T_perm hi)).count fun t ht' => ?_
        simp only [callT, ht, List.flatMap_cons, List.append_assoc]
      have K := keep_task I ((B.calls i cl hi).2 t (by simp [ht])) e2
      obtain ⟨u, hu⟩ := ih
      exact ⟨u, fun b => by show a'.b.sk.blen b ≤ u; rw [K.blen]; exact hu b⟩
    | pc cl a' n hi ht e2 =>
      have I : HInv c.a.b (pcT cl.pc ++ c.rest i) := by
        refine (B.heap.perm (Conf.T_perm hi)).count fun t ht' => ?_
        simp only [callT, ht, List.flatMap_nil, List.nil_append]
      exact bounded_pc ih I (.of e2)
  | start h op hp e ih => rw [(Conf.start_T e).2]; exact ih
  | write h k en j x hk hw e ih =>
    obtain ⟨o, e1, e2⟩ := bind_ok e
    cases o with
    | none => cases pure_ok e2; exact ih
    | some t =>
      obtain ⟨b, off, len⟩ := t
      simp only at e2
      split at e2
      · obtain ⟨h', e3, e4⟩ := bind_ok e2
        cases pure_ok e4
        show Bounded h'.sk
        rw [writeItem_sk e3]; exact ih
      · cases pure_ok e2; exact ih

/-! ## The state of the specification -/

/-- The handle called `m` is at position `m`. -/
def tabOf (c : Conf α) : List (Option (Nat × Kind)) := c.hs.mapIdx fun m o => o.map fun _ => (m, .plain)

/-- What the specification calls this handle. -/
def handOf (k : Skel) : Handle → Hand
  | .strong d _ => .shared (k.lab d).fam (k.lab d).path
  | .weak (some d) _ => .weak (k.lab d).fam (k.lab d).path
  | .weak none _ => .weakNone
  | .uniq r => .uniq r.buf ⟨r.off, r.len⟩ r.alloc.isSome

/-- The state of the specification that belongs to a state of the code in which no call is running. -/
def worldOf (c : Conf α) : World α :=
  ⟨c.a.b.sk.zst, c.a.b.sk.nbuf, c.a.b.slot, c.a.b.sk.mem, (List.range c.a.b.sk.nfam).map c.a.b.sk.fams,
    c.hs.map (Option.map fun e => handOf c.a.b.sk e.h)⟩

theorem handOf_er {k : Skel} {e : Ent} (umax : Nat) (h : entR k e.h) : ER umax k e .plain (handOf k e.h) := by
  obtain ⟨h1, b⟩ := e
  cases h1 with
  | strong d g => exact .shared d g b _ _ rfl
  | weak d g =>
    cases d with
    | none => cases (h rfl); exact .weakNone b
    | some d => exact .weak d g b _ _ rfl
  | uniq r => exact .uniq r b h

theorem join_map {β γ : Type} (l : List (Option β)) (f : β → γ) (j : Nat) : (l.map (Option.map f))[j]?.join = l[j]?.join.map f := by
  rw [List.getElem?_map]
  cases l[j]? <;> rfl

theorem tabOf_join (l : List (Option Ent)) (j : Nat) :
    (l.mapIdx fun m o => o.map fun _ => (m, Kind.plain))[j]?.join = l[j]?.join.map fun _ => (j, Kind.plain) := by
  rw [List.getElem?_mapIdx]
  cases l[j]? <;> rfl

/-- Rules that keep `upgrade` away from `into_mut`. -/
def gentle : Rules α := fun c op => c.careful op = true

theorem careful_of_quiet (c : Conf α) (op : Op α) (hq : c.Quiet) : c.careful op = true := by
  have hf : ∀ p, c.flying p = false := by
    intro p
    simp only [Conf.flying, List.any_eq_false]
    intro cl hcl
    simp [hq cl hcl]
  exact careful_of_flying (fun _ => hf _) fun _ => hf _

instance : Solo (α := α) gentle := ⟨fun _ _ _ _ h => h, careful_of_quiet⟩

theorem Conf.Reach.toGentle (hP : Tame P) (h : Conf.Reach P zst c) : Conf.Reach gentle zst c := by
  induction h with
  | init => exact .init
  | run h i e ih => exact .run ih i e
  | start h op hp e ih => exact .start ih op (hP _ _ _ h hp) e
  | write h k en j x hk hw e ih => exact .write ih k en j x hk hw e

theorem SR.atRest {umax : Nat} (hP : Tame P) (h : Conf.Reach P zst c) (hq : c.Quiet) (hn : ∀ k e, c.get k = some e → e.mutb = false)
    (hu : ∀ b, c.a.b.sk.blen b ≤ umax) : SR gentle umax zst ⟨c, tabOf c⟩ (worldOf c) := by
  have R := h.RI hP
  refine ⟨⟨h.toGentle hP, hq, ⟨rfl, rfl, rfl, rfl, by simp [worldOf], fun f hf => ?_, R.fams, hu⟩, ?_⟩, hn⟩
  · simp only [World.fam, worldOf, List.getD_eq_getElem?_getD]
    rw [List.getElem?_map, List.getElem?_range hf]; rfl
  · refine ⟨by simp [tabOf, worldOf], fun j => ?_, fun j j' m it it' h1 h2 => ?_, fun m e hm => ?_⟩
    · simp only [tabOf, worldOf]
      rw [tabOf_join, join_map]
      cases hj : c.hs[j]?.join with
      | none => exact .inl ⟨rfl, rfl⟩
      | some e => exact .inr ⟨j, .plain, _, e, rfl, rfl, hj, handOf_er umax (R.ents j e hj)⟩
    · simp only [tabOf] at h1 h2
      rw [tabOf_join] at h1 h2
      cases e1 : c.hs[j]?.join with
      | none => rw [e1] at h1; cases h1
      | some e =>
        cases e2 : c.hs[j']?.join with
        | none => rw [e2] at h2; cases h2
        | some e' => rw [e1] at h1; rw [e2] at h2; cases h1; cases h2; rfl
    · exact ⟨m, .plain, by simp only [tabOf]; rw [tabOf_join]; rw [show c.hs[m]?.join = some e from hm]; rfl⟩

theorem ren_id (y : Hand) : ren id y = y := by cases y <;> rfl

theorem Tied.atRest {umax : Nat} (hP : Tame P) (h : Conf.Reach P zst c) (hq : c.Quiet) (hn : ∀ k e, c.get k = some e → e.mutb = false)
    (hu : ∀ b, c.a.b.sk.blen b ≤ umax) : Tied gentle umax zst ⟨c, tabOf c⟩ (worldOf c) := by
  refine ⟨_, id, SR.atRest hP h hq hn hu, rfl, rfl, rfl, rfl, ?_, fun f hf => ⟨hf, rfl⟩, fun _ _ _ _ h => h, fun k y hk => ?_⟩
  · have : Option.map (ren id) = id := by
      funext o
      cases o with
      | none => rfl
      | some y => simp [ren_id]
    rw [this, List.map_id]
  · have B := h.BI hP
    have hl : (worldOf c).fams.length = c.a.b.sk.nfam := by simp [worldOf]
    rw [hl]
    simp only [worldOf] at hk
    rw [join_map] at hk
    cases hj : c.hs[k]?.join with
    | none => rw [hj] at hk; cases hk
    | some e =>
      rw [hj] at hk; cases hk
      obtain ⟨h1, b⟩ := e
      cases h1 with
      | strong d g =>
        obtain ⟨v, hd⟩ := data_of_strong B (show c.get k = some ⟨.strong d g, b⟩ from hj)
        exact B.heap.good.shape.famLt d (B.heap.good.ledger.lt hd) (by rw [B.heap.good.shape.kinds _ _ hd]; simp [Node.kind])
      | weak d g =>
        cases d with
        | none => trivial
        | some d =>
          obtain ⟨h2, h3⟩ := B.ents k _ hj d rfl
          exact B.heap.good.shape.famLt d h2 (by rw [h3]; simp)
      | uniq r => trivial

end
end Verif.Arc
