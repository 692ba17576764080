import Verif.Arc.Proofs.SendSync
import Verif.Arc.Proofs.Rest
import Verif.Arc.Proofs.Final
/-!
# Items that stay at home

If items must not be moved to other threads, all that has to do with them is done on the thread that made the slice.
-/

namespace Verif.Arc
open Verif.Spec (Side Slot Family Rng End)
open Verif.Rc
variable {α : Type} {T : Auto} {P : Rules α} {zst : Bool} {fam home : Nat → Nat} {t : Nat}

/-- A range of `n` items of buffer `b` is at home on thread `t`. -/
def AtH (home : Nat → Nat) (t : Nat) (k : Skel) (b n : Nat) : Prop := 0 < n → b < k.nbuf ∧ home b = t

/-- The families of the slices made on a thread belong to that thread. -/
def FamH (fam home : Nat → Nat) (k : Skel) : Prop := ∀ f, f < k.nfam → 0 < (k.fams f).rng.len → (k.fams f).buf < k.nbuf ∧ fam f = home (k.fams f).buf

def entH (home : Nat → Nat) (t : Nat) (k : Skel) : Handle → Prop
  | .uniq r => AtH home t k r.buf r.len
  | _ => True

def taskH (home : Nat → Nat) (t : Nat) (k : Skel) : ATask → Prop
  | .base (.dropReg r) => AtH home t k r.buf r.len
  | _ => True

def pcH (home : Nat → Nat) (t : Nat) (k : Skel) : Pc α → Prop
  | .immut r | .split _ r | .nxt _ r | .cut _ _ r | .imGate _ r _ | .imOk r _ => AtH home t k r.buf r.len
  | .imFg todo _ r _ => AtH home t k r.buf r.len ∧ ∀ w, .val w ∈ todo → AtH home t k w.buf w.len
  | _ => True

section
variable {k k' : Skel}

theorem AtH.wide (W : Wide k k') {b n : Nat} (h : AtH home t k b n) : AtH home t k' b n := fun hn =>
  ⟨Nat.lt_of_lt_of_le (h hn).1 W.nbuf, (h hn).2⟩

theorem AtH.le {b n m : Nat} (h : AtH home t k b n) (hm : m ≤ n) : AtH home t k b m := fun hn => h (by omega)

theorem AtH.zero {b : Nat} : AtH home t k b 0 := fun h => absurd h (Nat.lt_irrefl _)

theorem AtH.fill {b n u : Nat} (h : AtH home t k b n) : AtH (fill home k.nbuf u) t k b n := fun hn => by
  obtain ⟨h1, h2⟩ := h hn
  exact ⟨h1, by rw [fill_lt h1]; exact h2⟩

theorem entH.wide (W : Wide k k') {h : Handle} (e : entH home t k h) : entH home t k' h := by
  cases h with
  | uniq r => exact AtH.wide W e
  | _ => trivial

theorem entH.fill {u : Nat} {h : Handle} (e : entH home t k h) : entH (fill home k.nbuf u) t k h := by
  cases h with
  | uniq r => exact AtH.fill e
  | _ => trivial

theorem taskH.wide (W : Wide k k') {x : ATask} (e : taskH home t k x) : taskH home t k' x := by
  cases x with
  | base x => cases x with
    | dropReg r => exact AtH.wide W e
    | _ => trivial
  | _ => trivial

theorem taskH.fill {u : Nat} {x : ATask} (e : taskH home t k x) : taskH (fill home k.nbuf u) t k x := by
  cases x with
  | base x => cases x with
    | dropReg r => exact AtH.fill e
    | _ => trivial
  | _ => trivial

theorem pcH.wide (W : Wide k k') {p : Pc α} (e : pcH home t k p) : pcH home t k' p := by
  cases p with
  | immut | split | nxt | cut | imGate | imOk => exact AtH.wide W e
  | imFg => exact ⟨AtH.wide W e.1, fun w hw => (e.2 w hw).wide W⟩
  | _ => trivial

theorem pcH.fill {u : Nat} {p : Pc α} (e : pcH home t k p) : pcH (fill home k.nbuf u) t k p := by
  cases p with
  | immut | split | nxt | cut | imGate | imOk => exact AtH.fill e
  | imFg => exact ⟨AtH.fill e.1, fun w hw => (e.2 w hw).fill⟩
  | _ => trivial

theorem FamH.fill {u : Nat} (F : FamH fam home k) : FamH (fill fam k.nfam u) (fill home k.nbuf u) k := fun f hf hl => by
  obtain ⟨h1, h2⟩ := F f hf hl
  exact ⟨h1, by rw [fill_lt hf, fill_lt h1]; exact h2⟩

end

theorem FamH.keep {h h' : Heap α} (K : Keep h h') (F : FamH fam home h.sk) : FamH fam home h'.sk := by
  intro f hf
  rw [K.nfam] at hf; rw [K.fams, K.nbuf]
  exact F f hf

theorem FamH.data {h : Heap α} {U : List AT} (F : FamH fam home h.sk) (I : HInv h U) {d : Nat} {v : DataV} (hd : h.sk.node d = some (.data v))
    (ht : fam (h.sk.lab d).fam = t) : AtH home t h.sk v.buf v.len := by
  obtain ⟨a1, a2, _⟩ := I.good.shape.dataFam d v hd
  have hf := I.good.shape.famLt d (I.good.ledger.lt hd) (by rw [I.good.shape.kinds _ _ hd]; simp [Node.kind])
  have h1 := F _ hf
  have := at_sub (r := (h.sk.fams (h.sk.lab d).fam).rng) [] (h.sk.lab d).path
  rw [List.append_nil, ← a2] at this
  have h3 : v.len ≤ (h.sk.fams (h.sk.lab d).fam).rng.len := by
    have e1 := this.1
    have e2 := this.2
    simp only [Spec.Rng.at] at e1 e2
    omega
  rw [← a1] at h1
  intro hn
  obtain ⟨h4, h5⟩ := h1 (by omega)
  exact ⟨h4, by rw [← h5, ht]⟩

theorem FamH.root {a : Arena α} {r : Reg} (F : FamH fam home a.b.sk) (hf : ∀ f, a.b.sk.nfam ≤ f → fam f = t)
    (h : AtH home t a.b.sk r.buf r.len) : FamH fam home (a.root r).1.b.sk := by
  have g := root_grow a r
  intro f hlt hl
  by_cases h1 : f < a.b.sk.nfam
  · rw [g.fams f h1] at hl ⊢
    obtain ⟨h2, h3⟩ := F f h1 hl
    exact ⟨Nat.lt_of_lt_of_le h2 g.nbuf, h3⟩
  · have : f = a.b.sk.nfam := by
      have : f < a.b.sk.nfam + 1 := hlt
      omega
    subst this
    have e : (a.root r).1.b.sk.fams a.b.sk.nfam = ⟨r.buf, ⟨r.off, r.len⟩, r.alloc.isSome⟩ := upd_same _ a.b.sk.nfam _
    rw [e] at hl ⊢
    obtain ⟨h2, h3⟩ := h hl
    exact ⟨Nat.lt_of_lt_of_le h2 g.nbuf, by rw [hf _ (Nat.le_refl _)]; exact h3.symm⟩

theorem FamH.newBuf {h : Heap α} {xs : List α} (F : FamH fam home h.sk) : FamH fam home (newBuf h xs).1.sk :=
  fun f hf hl => ⟨Nat.lt_succ_of_lt (F f hf hl).1, (F f hf hl).2⟩

theorem newBuf_h (h : Heap α) (xs : List α) (hh : ∀ b, h.sk.nbuf ≤ b → home b = t) (n : Nat) :
    AtH home t (Rc.newBuf h xs).1.sk (Rc.newBuf h xs).2 n := fun _ => ⟨Nat.lt_succ_self _, hh _ (Nat.le_refl _)⟩

/-- What dropping an `Arc` leaves to be done. -/
theorem drop_h {h h' : Heap α} {U : List AT} {d : Nat} {ts : List Task} (F : FamH fam home h.sk) (I : HInv h U)
    (ht : h.sk.kind d = .data → fam (h.sk.lab d).fam = t) (e : dropStrong h d = .ok (h', ts)) : ∀ u ∈ ts, taskH home t h.sk (.base u) := by
  have ds : ∀ {l : List Nat} {u : Task}, u ∈ l.map Task.dropS → taskH home t h.sk (.base u) := by
    intro l u hu
    obtain ⟨_, _, rfl⟩ := List.mem_map.1 hu
    trivial
  intro u hu
  simp only [dropStrong] at e
  split at e
  · cases e
  · split at e
    · cases e; cases hu
    · split at e
      · cases e
      · next v hv =>
        cases e
        simp only [List.mem_append, List.mem_singleton] at hu
        rcases hu with (hu | hu) | rfl
        · exact ds hu
        · exact ds hu
        · refine AtH.le (F.data I hv (ht (I.good.shape.kinds _ _ hv))) ?_
          simp only [DataV.dropRange]
          have := v.len
          split <;> simp only [DataV.subLen] <;> (try simp only [Nat.shiftRight_eq_div_pow]) <;> omega
      · next v hv => rcases I.only _ _ hv with h | h <;> cases h
      · next v hv => rcases I.only _ _ hv with h | h <;> cases h
      · split at e
        · cases e; cases hu
        · split at e <;> cases e
          cases hu

theorem task_h {a a' : Arena α} {U : List AT} {x : ATask} {ts : List ATask} (F : FamH fam home a.b.sk) (I : HInv a.b (ataskT x ++ U)) (hp : aplain x)
    (hx : taskH home t a.b.sk x) (hq : ∀ u ∈ ataskT x, TQ (mine fam t) a u) (e : ataskStep a x = .ok (a', ts)) :
    FamH fam home a'.b.sk ∧ Wide a.b.sk a'.b.sk ∧ ∀ u ∈ ts, taskH home t a'.b.sk u := by
  have K := keep_task I hp e
  have W := Wide.keep K
  refine ⟨F.keep K, W, fun u hu => ?_⟩
  suffices h : taskH home t a.b.sk u from h.wide W
  have base : ∀ {l : List Task}, (∀ u ∈ l, taskH home t a.b.sk (.base u)) → ∀ u ∈ l.map ATask.base, taskH home t a.b.sk u := by
    intro l h u hu
    obtain ⟨w, hw, rfl⟩ := List.mem_map.1 hu
    exact h w hw
  cases x with
  | slice d g =>
    obtain ⟨⟨h', ts'⟩, e1, e2⟩ := bind_ok e
    cases pure_ok e2
    simp only [List.mem_append, List.mem_singleton] at hu
    rcases hu with hu | rfl
    · exact base (drop_h F I (hq (.ref d) (by simp [ataskT])) e1) u hu
    · trivial
  | guard g =>
    simp only [ataskStep, Arena.dropG] at e
    repeat' split at e
    all_goals first
      | (cases e; done)
      | (cases e; cases hu; done)
      | (cases e; obtain ⟨w, _, rfl⟩ := List.mem_map.1 hu; trivial)
  | base x =>
    obtain ⟨⟨h', ts'⟩, e1, e2⟩ := bind_ok e
    cases pure_ok e2
    refine base ?_ u hu
    cases x with
    | dropS d => exact drop_h F I (hq (.ref d) (by simp [ataskT, taskT])) e1
    | dropRcSlice d i => exact hp.elim
    | userCode => cases e1; intro u hu; cases hu
    | dropReg r =>
      simp only [Rc.taskStep] at e1
      split at e1
      · cases e1
        intro u hu
        obtain ⟨w, _, rfl⟩ := List.mem_map.1 hu
        trivial
      · split at e1
        · cases e1
        · split at e1
          · cases e1
            intro u hu
            simp only [List.mem_cons, List.not_mem_nil, or_false] at hu
            rcases hu with rfl | rfl
            · trivial
            · exact AtH.le hx (Nat.sub_le _ _)
          · cases e1

/-- One step of a call. -/
theorem pc_h {a a' : Arena α} {U : List AT} {pc : Pc α} {n : Next α} (F : FamH fam home a.b.sk) (I : HInv a.b (pcT pc ++ U)) (hp : pcH home t a.b.sk pc)
    (hf : ∀ f, a.b.sk.nfam ≤ f → fam f = t) (hh : ∀ b, a.b.sk.nbuf ≤ b → home b = t) (hq : ∀ u ∈ pcT pc, TQ (mine fam t) a u)
    (e : PStep a pc a' n) : FamH fam home a'.b.sk ∧ Wide a.b.sk a'.b.sk ∧ pcH home t a'.b.sk n.pc ∧ (∀ x ∈ n.push, entH home t a'.b.sk x.h) ∧
      ∀ u ∈ n.tasks, taskH home t a'.b.sk u := by
  have kp : calm pc → FamH fam home a'.b.sk ∧ Wide a.b.sk a'.b.sk := fun h => ⟨F.keep (keep_pc I e h), .keep (keep_pc I e h)⟩
  have no : ∀ {β : Type} {Q : β → Prop}, ∀ u ∈ ([] : List β), Q u := fun u hu => by cases hu
  have one : ∀ {en : Ent}, entH home t a'.b.sk en.h → ∀ x ∈ [en], entH home t a'.b.sk x.h := fun h x hx => by
    simp only [List.mem_singleton] at hx; subst hx; exact h
  have two : ∀ {e1 e2 : Ent}, entH home t a'.b.sk e1.h → entH home t a'.b.sk e2.h → ∀ x ∈ [e1, e2], entH home t a'.b.sk x.h := fun h1 h2 x hx => by
    simp only [List.mem_cons, List.not_mem_nil, or_false] at hx
    rcases hx with rfl | rfl
    · exact h1
    · exact h2
  have kids : ∀ {v : DataV} {w : Reg}, Fg.val w ∉ kidsFg v := by
    intro v w h
    simp only [kidsFg, List.mem_append, List.mem_map] at h
    rcases h with ⟨_, _, h⟩ | ⟨_, _, h⟩ <;> cases h
  cases e with
  | new0 xs hl r a1 d hr e =>
    have ea : a' = ((a.withB (newBuf a.b xs).1).root r).1 := by rw [e]
    subst ea
    have h1 : FamH fam home (a.withB (newBuf a.b xs).1).b.sk := F.newBuf
    exact ⟨h1.root hf (by rw [hr]; exact .zero), (wide_newBuf a.b xs).trans (.grow (root_grow (a.withB (newBuf a.b xs).1) r)), trivial, no, no⟩
  | new1 xs hl r h1 al a1 d eh hr e =>
    have ea : a' = ((a.withB h1).root r).1 := by rw [e]
    have eh1 : h1 = ((newBuf a.b xs).1.rcNew (.alloc (newBuf a.b xs).2) ⟨0, []⟩).1 := by rw [eh]
    subst ea
    have hw : Wide (newBuf a.b xs).1.sk (a.withB h1).b.sk := by rw [eh1]; exact ⟨Nat.le_refl _, fun _ _ => rfl⟩
    have h2 : FamH fam home (a.withB h1).b.sk := by rw [eh1]; exact (F.newBuf : FamH fam home (newBuf a.b xs).1.sk)
    have h3 : (a.withB h1).b.sk.nfam = a.b.sk.nfam := by rw [eh1]; rfl
    exact ⟨h2.root (by rw [h3]; exact hf) (by rw [hr]; exact (newBuf_h a.b xs hh _).wide hw),
      ((wide_newBuf a.b xs).trans hw).trans (.grow (root_grow (a.withB h1) r)), trivial, no, no⟩
  | mutNew xs h r e =>
    simp only [mutFromBox] at e
    split at e <;> cases e
    · exact ⟨F.newBuf, wide_newBuf a.b xs, trivial, one (newBuf_h a.b xs hh _), no⟩
    · exact ⟨(F.newBuf : FamH fam home (newBuf a.b xs).1.sk), (wide_newBuf a.b xs).trans ⟨Nat.le_refl _, fun _ _ => rfl⟩, trivial,
        one (newBuf_h a.b xs hh _), no⟩
  | immut r a1 d e => cases e; exact ⟨F.root hf hp, .grow (root_grow _ _), trivial, no, no⟩
  | split s r h new rest e =>
    obtain ⟨h1, h2⟩ := kp trivial
    have hp1 := AtH.wide h2 hp
    have hsh : r.len >>> 1 ≤ r.len := by rw [Nat.shiftRight_eq_div_pow]; omega
    simp only [regSplitOff] at e
    split at e <;>
    · obtain ⟨h3, e1, e2⟩ := bind_ok e
      cases pure_ok e2
      exact ⟨h1, h2, trivial, two (AtH.le hp1 (by simp only; omega)) (AtH.le hp1 (by simp only; omega)), no⟩
  | nxt en r h o r' ts re hre e =>
    have sk : h.sk = a.b.sk ∧ r'.buf = r.buf ∧ r'.len ≤ r.len ∧ ∃ l : List Nat, ts = l.map .dropS := by
      simp only [iterNext] at e
      split at e
      · cases e; exact ⟨rfl, rfl, Nat.le_refl _, _, rfl⟩
      · split at e
        · cases e
        · split at e
          · cases en <;> simp only at e <;> split at e <;> cases e <;> refine ⟨rfl, rfl, ?_, ?_⟩ <;>
              first | exact ⟨_, rfl⟩ | exact ⟨[], rfl⟩ | (simp only; omega)
          · cases e
    obtain ⟨sk1, sk2, sk3, l, rfl⟩ := sk
    have ek : (a.withB h).b.sk = a.b.sk := sk1
    refine ⟨by rw [ek]; exact F, by rw [ek]; exact .refl _, trivial, one ?_, fun u hu => ?_⟩
    · rw [ek]
      show AtH _ _ _ r'.buf _
      rw [sk2]
      exact AtH.le hp sk3
    · simp only [List.mem_map] at hu
      obtain ⟨w, ⟨_, _, rfl⟩, rfl⟩ := hu
      trivial
  | cutF n r h new rest hn e =>
    obtain ⟨h1, h2⟩ := kp trivial
    have hp := AtH.wide h2 hp
    obtain ⟨⟨h3, a1, a2⟩, e1, e2⟩ := bind_ok e
    cases pure_ok e2
    exact ⟨h1, h2, trivial, two (AtH.le hp (by simp only; omega)) (AtH.le hp (by simp only; omega)), no⟩
  | cutB n r h new rest hn e =>
    obtain ⟨h1, h2⟩ := kp trivial
    have hp := AtH.wide h2 hp
    obtain ⟨⟨h3, a1, a2⟩, e1, e2⟩ := bind_ok e
    cases pure_ok e2
    exact ⟨h1, h2, trivial, two (AtH.le hp (by simp only; omega)) (AtH.le hp (by simp only; omega)), no⟩
  | cutNo en n r hn => exact ⟨F, .refl _, trivial, one hp, no⟩
  | csLose c r h e =>
    obtain ⟨h1, h2⟩ := kp trivial
    refine ⟨h1, h2, trivial, no, fun u hu => ?_⟩
    simp only [List.mem_singleton] at hu; subst hu
    exact AtH.zero
  | gTryNo x b pend fs y h =>
    refine ⟨F, .refl _, trivial, no, fun u hu => ?_⟩
    obtain ⟨_, _, rfl⟩ := List.mem_map.1 hu
    trivial
  | gTryOk x b pend fs y g hb hg =>
    refine ⟨F, .refl _, trivial, no, fun u hu => ?_⟩
    obtain ⟨_, _, rfl⟩ := List.mem_map.1 hu
    trivial
  | im2 d g v hd hc =>
    obtain ⟨h1, h2⟩ := kp trivial
    have hv := getData_some hd
    exact ⟨h1, h2, ⟨(F.data I hv (hq (.ref d) (by simp [pcT]) (I.good.shape.kinds _ _ hv))).wide h2, fun w hw => absurd hw kids⟩, no, no⟩
  | imFg0 g r acc => exact ⟨F, .refl _, hp.1, no, no⟩
  | imKid c todo g r acc v hd hc =>
    obtain ⟨h1, h2⟩ := kp trivial
    refine ⟨h1, h2, ⟨AtH.wide h2 hp.1, fun w hw => ?_⟩, no, no⟩
    simp only [List.mem_append, List.mem_cons] at hw
    rcases hw with hw | hw | hw
    · exact absurd hw kids
    · cases hw; exact .zero
    · exact (hp.2 w (List.mem_cons_of_mem _ hw)).wide h2
  | imKidNo c todo g r acc v hd hc =>
    refine ⟨F, .refl _, ⟨hp.1, fun w hw => hp.2 w (List.mem_cons_of_mem _ hw)⟩, no, fun u hu => ?_⟩
    simp only [List.mem_singleton] at hu; subst hu
    trivial
  | imVal w todo g r acc =>
    refine ⟨F, .refl _, ⟨hp.1, fun w hw => hp.2 w (List.mem_cons_of_mem _ hw)⟩, no, fun u hu => ?_⟩
    simp only [List.mem_singleton] at hu; subst hu
    exact hp.2 w (List.mem_cons_self ..)
  | imGate g r acc v hv =>
    refine ⟨F, .refl _, hp, no, fun u hu => ?_⟩
    simp only [List.mem_singleton] at hu; subst hu
    trivial
  | imOk r acc => exact ⟨F, .refl _, trivial, one hp, no⟩
  | _ =>
    obtain ⟨h1, h2⟩ := kp trivial
    refine ⟨h1, h2, trivial, ?_, ?_⟩ <;> intro x hx <;>
    first
      | (exact absurd hx (List.not_mem_nil))
      | (simp only [List.mem_singleton] at hx; subst hx; trivial)

/-- All that has to do with a slice is on the thread that made it. -/
structure TConf.HI (fam : Nat → Nat) (s : TConf α) : Prop where
  zones : s.ZI fam
  fams : FamH fam s.home s.c.a.b.sk
  hnd : ∀ k en, s.c.get k = some en → entH s.home (s.at_ k) s.c.a.b.sk en.h
  lent : ∀ k en, s.c.get k = some en → en.mutb = true → s.lent k = s.at_ k
  pc : ∀ (i : Nat) cl, s.c.calls[i]? = some cl → pcH s.home (s.on i) s.c.a.b.sk cl.pc
  task : ∀ (i : Nat) cl, s.c.calls[i]? = some cl → ∀ u ∈ cl.tasks, taskH s.home (s.on i) s.c.a.b.sk u

section
variable {s : TConf α} {c' : Conf α}

theorem TConf.HI.run {b : Bool} {i : Nat} (H : s.HI fam) (A : s.c.IA b) (N : s.c.NI) (e : s.c.step i = .ok c') :
    TConf.HI (fill fam s.c.a.b.sk.nfam (s.on i))
      ⟨c', fill s.at_ s.c.hs.length (s.on i), s.on, fill s.lent s.c.hs.length (s.on i), fill s.home s.c.a.b.sk.nbuf (s.on i)⟩ := by
  have Z' := H.zones.run A N e (fill s.lent s.c.hs.length (s.on i)) (fill s.home s.c.a.b.sk.nbuf (s.on i))
  have B := A.bi
  have key : ∀ {cl cl' : Call α} {a' : Arena α} {new : List Ent}, c' = s.c.after i a' cl' new → s.c.calls[i]? = some cl →
      FamH (fill fam s.c.a.b.sk.nfam (s.on i)) (fill s.home s.c.a.b.sk.nbuf (s.on i)) a'.b.sk → Wide s.c.a.b.sk a'.b.sk →
      pcH (fill s.home s.c.a.b.sk.nbuf (s.on i)) (s.on i) a'.b.sk cl'.pc →
      (∀ x ∈ new, entH (fill s.home s.c.a.b.sk.nbuf (s.on i)) (s.on i) a'.b.sk x.h) →
      (∀ u ∈ cl'.tasks, taskH (fill s.home s.c.a.b.sk.nbuf (s.on i)) (s.on i) a'.b.sk u) →
      TConf.HI (fill fam s.c.a.b.sk.nfam (s.on i))
        ⟨c', fill s.at_ s.c.hs.length (s.on i), s.on, fill s.lent s.c.hs.length (s.on i), fill s.home s.c.a.b.sk.nbuf (s.on i)⟩ := by
    intro cl cl' a' new ec hi F W h1 h2 h3
    subst ec
    refine ⟨Z', F, fun k en hk => ?_, fun k en hk hm => ?_, fun j clj hj => ?_, fun j clj hj u hu => ?_⟩
    · rcases after_get hk with hk | ⟨hl, hk⟩
      · simp only; rw [fill_lt (Conf.get_lt hk)]
        exact (H.hnd k en hk).fill.wide W
      · simp only; rw [fill_ge hl]
        exact h2 en hk
    · rcases after_get hk with hk | ⟨hl, hk⟩
      · simp only; rw [fill_lt (Conf.get_lt hk), fill_lt (Conf.get_lt hk)]
        exact H.lent k en hk hm
      · simp only; rw [fill_ge hl, fill_ge hl]
    · rcases after_calls hi hj with ⟨rfl, rfl⟩ | ⟨_, hj⟩
      · exact h1
      · exact (H.pc j clj hj).fill.wide W
    · rcases after_calls hi hj with ⟨rfl, rfl⟩ | ⟨_, hj⟩
      · exact h3 u hu
      · exact (H.task j clj hj u hu).fill.wide W
  have tq : ∀ {cl : Call α}, s.c.calls[i]? = some cl → ∀ u ∈ callT cl, TQ (mine (fill fam s.c.a.b.sk.nfam (s.on i)) (s.on i)) s.c.a u :=
    fun hi u hu => (H.zones.call i _ hi u hu).fill B A.gf (Conf.call_tok hi hu)
  have e0 := e
  cases CStep.of e with
  | none hi =>
    refine ⟨Z', H.fams.fill, fun k en hk => ?_, fun k en hk hm => ?_, fun j clj hj => (H.pc j clj hj).fill, fun j clj hj u hu => (H.task j clj hj u hu).fill⟩
    · simp only; rw [fill_lt (Conf.get_lt hk)]; exact (H.hnd k en hk).fill
    · simp only; rw [fill_lt (Conf.get_lt hk), fill_lt (Conf.get_lt hk)]; exact H.lent k en hk hm
  | task cl x ts a' new hi ht e1 =>
    have I : HInv s.c.a.b (ataskT x ++ (ts.flatMap ataskT ++ (pcT cl.pc ++ s.c.rest i))) := by
      refine (B.heap.perm (Conf.T_perm hi)).count fun t ht' => ?_
      simp only [callT, ht, List.flatMap_cons, List.append_assoc]
    obtain ⟨h1, h2, h3⟩ := task_h (t := s.on i) H.fams.fill I ((B.calls i cl hi).2 x (by simp [ht])) (H.task i cl hi x (by simp [ht])).fill
      (fun u hu => tq hi u (by simp [callT, ht, hu])) e1
    refine key rfl hi h1 h2 ((H.pc i cl hi).fill.wide h2) (by simp) fun u hu => ?_
    simp only [List.mem_append] at hu
    rcases hu with hu | hu
    · exact h3 u hu
    · exact (H.task i cl hi u (by simp [ht, hu])).fill.wide h2
  | pc cl a' n hi ht e1 =>
    have I : HInv s.c.a.b (pcT cl.pc ++ s.c.rest i) := by
      refine (B.heap.perm (Conf.T_perm hi)).count fun t ht' => ?_
      simp only [callT, ht, List.flatMap_nil, List.nil_append]
    obtain ⟨h1, h2, h3, h4, h5⟩ := pc_h (t := s.on i) H.fams.fill I (H.pc i cl hi).fill (fun f hf => fill_ge hf) (fun b hb => fill_ge hb)
      (fun u hu => tq hi u (by simp [callT, hu])) (.of e1)
    exact key rfl hi h1 h2 h3 h4 h5

theorem TConf.HI.start {b : Bool} {op : Op α} (H : s.HI fam) (A : s.c.IA b) (N : s.c.NI) (hm : s.may T t op)
    (hT : (T.arcSlice).sync = false ∧ (T.weakSlice).sync = false) (e : s.c.start op = some c') :
    TConf.HI fam ⟨c', fill s.at_ s.c.hs.length t, fill s.on s.c.calls.length t, s.lent, s.home⟩ := by
  have ha := (Conf.start_T e).2
  have clt : ∀ {j : Nat} {cl : Call α}, s.c.calls[j]? = some cl → j < s.c.calls.length := fun h => (List.getElem?_eq_some_iff.1 h).1
  have given : ∀ {k : Nat} {r : Reg} {m : Bool}, op.on = some k → op.byRef = false → s.c.get k = some ⟨.uniq r, m⟩ → AtH s.home t s.c.a.b.sk r.buf r.len := by
    intro k r m h1 h2 h3
    rcases hm k _ h1 h3 with h | ⟨h, _⟩
    · rw [← h]; exact H.hnd k _ h3
    · rw [h2] at h; cases h
  refine ⟨H.zones.start A N hm hT e, by rw [ha]; exact H.fams, fun k en hk => ?_, fun k en hk hmu => ?_, fun j clj hj => ?_, fun j clj hj u hu => ?_⟩
  · simp only at hk ⊢
    rw [ha]
    rcases start_get (.of e) hk with h | ⟨_, _, rfl⟩ | ⟨d, g, _, h1, rfl⟩
    · rw [fill_lt (Conf.get_lt h)]; exact H.hnd k en h
    · trivial
    · trivial
  · simp only at hk ⊢
    rcases start_get (.of e) hk with h | ⟨_, _, rfl⟩ | ⟨d, g, _, h1, rfl⟩
    · rw [fill_lt (Conf.get_lt h)]; exact H.lent k en h hmu
    · cases hmu
    · cases hmu
  · simp only at hj ⊢
    rw [ha]
    rcases start_call (.of e) hj with h | ⟨rfl, ho, _, h⟩
    · rw [fill_lt (clt h)]; exact H.pc j clj h
    · rw [fill_ge (Nat.le_refl _)]
      rcases h with ⟨_, hp, ht, _⟩ | ⟨_, hp, ht, _⟩ | ⟨k, d, g, hk, _, _, ht, hp⟩ | ⟨k, d, g, b, hk, _, _, ht, hp⟩ |
        ⟨k, d, g, hk, _, _, _, hp⟩ | ⟨k, d, g, b, hk, _, _, _, _, hp, ht⟩ | ⟨k, r, b, hk, _, _, _, hp⟩
      · rw [hp]; trivial
      · rw [hp]; trivial
      · rcases hp with ⟨_, hp⟩ | ⟨s, _, hp⟩ | ⟨_, hp⟩ <;> rw [hp] <;> trivial
      · rcases hp with ⟨_, hp⟩ | ⟨_, hp⟩ <;> rw [hp] <;> trivial
      · rcases hp with ⟨_, hp, ht⟩ | ⟨_, hp, ht⟩ | ⟨_, hp, ht⟩ <;> rw [hp] <;> trivial
      · rw [hp]; trivial
      · rcases hp with ⟨rfl, hp, ht⟩ | ⟨_, rfl, hp, ht⟩ | ⟨_, rfl, hp, ht⟩ | ⟨_, _, rfl, hp, ht⟩ | ⟨rfl, hp, ht⟩ <;> rw [hp] <;>
          first | exact given rfl rfl hk | trivial
  · simp only at hj ⊢
    rw [ha]
    rcases start_call (.of e) hj with h | ⟨rfl, ho, _, h⟩
    · rw [fill_lt (clt h)]; exact H.task j clj h u hu
    · rw [fill_ge (Nat.le_refl _)]
      have nil : clj.tasks = [] → taskH s.home t s.c.a.b.sk u := fun h => by rw [h] at hu; cases hu
      rcases h with ⟨_, hp, ht, _⟩ | ⟨_, hp, ht, _⟩ | ⟨k, d, g, hk, _, _, ht, hp⟩ | ⟨k, d, g, b, hk, _, _, ht, hp⟩ |
        ⟨k, d, g, hk, _, _, _, hp⟩ | ⟨k, d, g, b, hk, _, _, _, _, hp, ht⟩ | ⟨k, r, b, hk, _, _, _, hp⟩
      · exact nil ht
      · exact nil ht
      · exact nil ht
      · exact nil ht
      · rcases hp with ⟨_, hp, ht⟩ | ⟨_, hp, ht⟩ | ⟨_, hp, ht⟩
        · exact nil ht
        · exact nil ht
        · rw [ht, List.mem_singleton] at hu; subst hu; trivial
      · exact nil ht
      · rcases hp with ⟨rfl, hp, ht⟩ | ⟨_, rfl, hp, ht⟩ | ⟨_, rfl, hp, ht⟩ | ⟨_, _, rfl, hp, ht⟩ | ⟨rfl, hp, ht⟩
        · exact nil ht
        · exact nil ht
        · exact nil ht
        · exact nil ht
        · rw [ht, List.mem_singleton] at hu; subst hu
          exact given rfl rfl hk

theorem TConf.HI.write {en : Ent} {j : Nat} {x : α} (H : s.HI fam) (e : s.c.write en j x = .ok c') : TConf.HI fam { s with c := c' } := by
  have Z' := H.zones.write e
  rcases Conf.write_cases e with rfl | ⟨_, _, rfl⟩
  · exact H
  · exact ⟨Z', H.fams, H.hnd, H.lent, H.pc, H.task⟩

theorem TConf.HI.panic {b : Bool} {i : Nat} (H : s.HI fam) (A : s.c.IA b) (e : s.c.panic i = some c') : TConf.HI fam { s with c := c' } := by
  have Z' := H.zones.panic A e
  obtain ⟨cl, r, ts, ts', us, sl, p⟩ := Panicked.of A.bi.heap e
  have h1 : c'.a.b.sk = s.c.a.b.sk := by rw [p.eq]; rfl
  refine ⟨Z', by rw [h1]; exact H.fams, fun k en hk => ?_, fun k en hk hm => ?_, fun j clj hj => ?_, fun j clj hj u hu => ?_⟩
  · have hk : c'.get k = some en := hk
    rw [p.get] at hk; rw [h1]; exact H.hnd k en hk
  · have hk : c'.get k = some en := hk
    rw [p.get] at hk; exact H.lent k en hk hm
  · rw [h1]
    rcases p.calls hj with ⟨rfl, rfl⟩ | ⟨_, hj⟩
    · trivial
    · exact H.pc j clj hj
  · rw [h1]
    rcases p.calls hj with ⟨rfl, rfl⟩ | ⟨_, hj⟩
    · simp only [List.mem_cons, List.mem_append] at hu
      rcases hu with rfl | hu | hu
      · exact H.task _ cl p.call _ (by rw [p.tasks]; simp)
      · obtain ⟨t0, h3, h4⟩ := p.uw.mem u hu
        rcases h4 with rfl | ⟨r, rfl, rfl⟩
        · exact H.task _ cl p.call _ (by rw [p.tasks]; simp [h3])
        · exact AtH.zero
      · rcases cleanup_cases p.clean with ⟨r, hpc, rfl⟩ | ⟨x0, b, og, fs, y, hpc, rfl⟩
        · cases hu
        · simp only [List.mem_append, List.mem_map, List.mem_singleton] at hu
          rcases hu with (⟨g, _, rfl⟩ | ⟨f, _, rfl⟩) | rfl <;> trivial
    · exact H.task j clj hj u hu

theorem TReach.homes (hT : T.send = false) (hP : PTame P) (h : TReach T P zst s) : ∃ fam, s.HI fam := by
  have hS := shared_stuck (.inl hT)
  have hU : T.arcSliceMut.send = false := by
    obtain ⟨a, b⟩ := T
    cases hT; cases b <;> rfl
  induction h with
  | init at_ on lent home =>
    refine ⟨fun _ => 0, ⟨⟨fun k en hk => ?_, fun i cl hi => ?_, fun i cl hi => ?_⟩, fun f hf => ?_, fun k en hk => ?_, fun k en hk => ?_,
      fun i cl hi => ?_, fun i cl hi => ?_⟩⟩
    · simp [Conf.init, Conf.get] at hk
    · simp [Conf.init] at hi
    · simp [Conf.init] at hi
    · exact absurd hf (Nat.not_lt_zero _)
    · simp [Conf.init, Conf.get] at hk
    · simp [Conf.init, Conf.get] at hk
    · simp [Conf.init] at hi
    · simp [Conf.init] at hi
  | run h i e ih =>
    obtain ⟨fam, H⟩ := ih
    exact ⟨_, H.run (h.erase.IA' hP) (h.erase.families hP 0).1 e⟩
  | start h t op hp hm e ih =>
    obtain ⟨fam, H⟩ := ih
    exact ⟨fam, H.start (h.erase.IA' hP) (h.erase.families hP 0).1 hm (by rw [hS.1, hS.2]; exact ⟨rfl, rfl⟩) e⟩
  | send h k t en hk hb hm hs ih =>
    obtain ⟨hh, m⟩ := en
    obtain ⟨r, rfl⟩ := stuck_send (.inl hT) hs
    simp only [Auto.handle] at hs
    rw [hU] at hs; cases hs
  | lend h k t en hk hm hs ih => rw [hT] at hs; cases hs
  | write h k en j x hk hw e ih =>
    obtain ⟨fam, H⟩ := ih
    exact ⟨fam, H.write e⟩
  | panic h i e ih =>
    obtain ⟨fam, H⟩ := ih
    exact ⟨fam, H.panic (h.erase.IA' hP) e⟩

/-- Handles that show an item are on the thread that made the slice. -/
theorem TConf.HI.shows {b : Bool} (H : s.HI fam) (A : s.c.IA b) {k bf i : Nat} (h : s.c.Shows k bf i) :
    bf < s.c.a.b.sk.nbuf ∧ s.at_ k = s.home bf := by
  obtain ⟨en, o, l, hk, hr, h1, h2⟩ := h
  obtain ⟨hh, m⟩ := en
  cases hh with
  | weak d g => cases hr
  | uniq r =>
    cases hr
    obtain ⟨h3, h4⟩ := H.hnd k _ hk (by omega)
    exact ⟨h3, h4.symm⟩
  | strong d g =>
    obtain ⟨v, hv, e2⟩ := bind_ok hr
    cases pure_ok e2
    obtain ⟨h3, h4⟩ := H.fams.data A.bi.heap (getData_some hv) (t := s.at_ k) (H.zones.hnd k _ hk) (by omega)
    exact ⟨h3, h4.symm⟩

/-- Items are dropped and moved out by the thread that made the slice. -/
theorem TConf.HI.leave {b : Bool} (H : s.HI fam) (A : s.c.IA b) {i bf j : Nat} {x : α} (e : s.c.step i = .ok c') (h1 : s.c.a.b.slot bf j = .live x)
    (h2 : c'.a.b.slot bf j ≠ .live x) : s.on i = s.home bf := by
  have B := A.bi
  cases CStep.of e with
  | none hc => exact absurd h1 h2
  | task cl u ts a' new hi ht e2 =>
    have h6 := H.task i cl hi u (by rw [ht]; simp)
    have h2 : a'.b.slot bf j ≠ .live x := h2
    cases u with
    | slice d g =>
      obtain ⟨⟨h', ts'⟩, e1, e2⟩ := bind_ok e2
      cases pure_ok e2
      have := dropStrong_slot e1
      exact (h2 (by show h'.slot bf j = _; rw [this]; exact h1)).elim
    | guard g =>
      simp only [ataskStep, Arena.dropG] at e2
      repeat' split at e2
      all_goals first | (cases e2; done) | (cases e2; exact absurd h1 h2)
    | base u =>
      obtain ⟨⟨h', ts'⟩, e1, e2⟩ := bind_ok e2
      cases pure_ok e2
      cases u with
      | dropS d =>
        have := dropStrong_slot e1
        exact (h2 (by show h'.slot bf j = _; rw [this]; exact h1)).elim
      | dropRcSlice d k => exact ((B.calls i cl hi).2 (.base (.dropRcSlice d k)) (by simp [ht])).elim
      | userCode => cases e1; exact absurd h1 h2
      | dropReg r =>
        simp only [Rc.taskStep] at e1
        split at e1
        · cases e1; exact absurd h1 h2
        · next hl =>
          split at e1
          · cases e1
          · split at e1
            · cases e1
              by_cases hb : bf = r.buf
              · subst hb
                exact (h6 (by omega)).2.symm
              · refine absurd ?_ h2
                rw [← h1]
                show upd s.c.a.b.slot r.buf (upd (s.c.a.b.slot r.buf) r.off .dropped) bf j = _
                simp [upd, hb]
            · cases e1
  | pc cl a' n hi ht e2 =>
    have h2 : a'.b.slot bf j ≠ .live x := h2
    have h6 := H.pc i cl hi
    have I : HInv s.c.a.b (pcT cl.pc ++ s.c.rest i) := by
      refine (B.heap.perm (Conf.T_perm hi)).count fun t ht' => ?_
      simp only [callT, ht, List.flatMap_nil, List.nil_append]
    have ps := PStep.of e2
    rcases slots_pc I ps bf j with h | ⟨h, _⟩ | ⟨y, en, r, hp, _, h4, _⟩
    · rw [h] at h2; exact absurd h1 h2
    · rw [h1] at h; cases h
    · rw [hp] at h6 e2
      by_cases hb : bf = r.buf
      · subst hb
        refine (h6 ?_).2.symm
        cases hl : r.len with
        | succ _ => omega
        | zero =>
          simp only [pcStep, iterNext, hl, ↓reduceIte] at e2
          cases pure_ok e2
          exact absurd h1 h2
      · refine absurd ?_ h2
        rw [← h1]
        obtain ⟨⟨h', o, r', ts⟩, e3, e4⟩ := bind_ok e2
        cases pure_ok e4
        show h'.slot bf j = _
        simp only [iterNext] at e3
        split at e3
        · cases e3; rfl
        · split at e3
          · cases e3
          · split at e3
            · cases en <;> simp only at e3 <;> split at e3 <;> cases e3 <;> simp [Heap.setSlot, upd, hb]
            · cases e3

end
end Verif.Arc
