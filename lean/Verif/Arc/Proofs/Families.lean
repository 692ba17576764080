import Verif.Arc.Proofs.Private
import Verif.Arc.Proofs.SeqCall
/-!
# Calls stay in their family

A call that is made on a slice has only to do with slices that come from the same slice
as this one. A slice that is new is known only to the call that makes it, until it returns.
-/

namespace Verif.Arc
open Verif.Spec (Side Slot Family Rng End)
open Verif.Rc
variable {α : Type}

/-- The slices of all families but one. -/
def famOff (f : Nat) : Zone where
  R l := l.fam ≠ f
  G l := l.fam ≠ f
  D _ l := l.fam ≠ f

theorem famOff_ok {a : Arena α} {f : Nat} (hf : f < a.b.sk.nfam) : (famOff f).OK a where
  kid _ _ h := h
  gup _ _ h := h
  par _ _ _ _ h := h
  new l h := by simp only [famOff]; omega
  rg _ h := h
  rd _ _ h := h

/-- The slice a handle is about. -/
def nodeOf : Handle → Option Nat
  | .strong d _ => some d
  | .weak d _ => d
  | .uniq _ => none

theorem node_get {c : Conf α} {k : Nat} {en : Ent} (h : c.get k = some en) : c.node k = nodeOf en.h := by
  obtain ⟨hh, m⟩ := en
  simp only [Conf.node, h]
  cases hh <;> rfl

/-- A call is recorded to be made on the slice its handle is about. -/
theorem start_node {c c' : Conf α} {op : Op α} (h : SStep c op c') {cl : Call α} (hj : c'.calls[c.calls.length]? = some cl) :
    cl.on = op.on.bind c.node ∧ ∀ k, cl.borrow = some k → op.on = some k := by
  cases h <;> simp_all [Conf.plain, Conf.shared, Conf.taking, Op.on] <;> subst hj <;> simp

section
variable {c c' : Conf α}

/-- Calls that have borrowed a handle are recorded to be made on its slice. -/
structure Conf.NI (c : Conf α) : Prop where
  bor : ∀ (i : Nat) cl k, c.calls[i]? = some cl → cl.borrow = some k → k < c.hs.length ∧ ∀ en, c.get k = some en → nodeOf en.h = cl.on

theorem Conf.NI.step {i : Nat} (N : c.NI) (e : c.step i = .ok c') : c'.NI where
  bor j clj k hj hb := by
    obtain ⟨cl0, h1, h2, h3, _⟩ := step_keep e hj
    obtain ⟨h4, h5⟩ := N.bor j cl0 k h1 (h2 ▸ hb)
    exact ⟨Nat.lt_of_lt_of_le h4 (step_len e), fun en hen => by rw [h3]; exact h5 en (step_get_back e h4 hen)⟩

theorem Conf.NI.start {op : Op α} (N : c.NI) (e : c.start op = some c') : c'.NI where
  bor j clj k hj hb := by
    have back : k < c.hs.length → ∀ en, c'.get k = some en → ∃ m, c.get k = some ⟨en.h, m⟩ := by
      intro hl en hen
      rcases start_get (.of e) hen with h | ⟨_, h, _⟩ | ⟨d, g, _, h, rfl⟩
      · exact ⟨_, h⟩
      · omega
      · exact ⟨_, h⟩
    have hlen := start_len (.of e)
    rcases start_call (.of e) hj with h | ⟨rfl, h⟩
    · obtain ⟨h4, h5⟩ := N.bor j clj k h hb
      refine ⟨by omega, fun en hen => ?_⟩
      obtain ⟨m, hm⟩ := back h4 en hen
      exact (h5 ⟨en.h, m⟩ hm)
    · obtain ⟨h1, h2⟩ := start_node (.of e) hj
      have h3 := h2 k hb
      rw [h3] at h1
      rcases start_tok (.of e) hj with h | ⟨_, h⟩
      · have := (List.getElem?_eq_some_iff.1 h).1; omega
      · obtain ⟨_, en0, h4, _⟩ := h k hb
        have hl := Conf.get_lt h4
        refine ⟨by omega, fun en hen => ?_⟩
        obtain ⟨m, hm⟩ := back hl en hen
        rw [h1]; exact (node_get hm).symm

theorem Conf.NI.write {en : Ent} {j : Nat} {x : α} (N : c.NI) (e : c.write en j x = .ok c') : c'.NI := by
  obtain ⟨h1, h2⟩ : c'.hs = c.hs ∧ c'.calls = c.calls := by
    rcases Conf.write_cases e with rfl | ⟨_, _, rfl⟩ <;> exact ⟨rfl, rfl⟩
  obtain ⟨N⟩ := N
  refine ⟨?_⟩
  simpa only [Conf.get, h1, h2] using N

theorem Conf.NI.panic {i : Nat} (N : c.NI) (H : HInv c.a.b c.T) (e : c.panic i = some c') : c'.NI := by
  obtain ⟨cl, r, ts, ts', us, s, p⟩ := Panicked.of H e
  refine ⟨fun j clj k hj hb => ?_⟩
  have hs : c'.hs = c.hs := by rw [p.eq]
  have hg := p.get k
  rcases p.calls hj with ⟨rfl, rfl⟩ | ⟨_, hj⟩
  · rw [hs, hg]; exact N.bor _ cl k p.call hb
  · rw [hs, hg]; exact N.bor j clj k hj hb

/-! ## Families -/

/-- The call is not made on a slice of family `f`. -/
def Foreign (a : Arena α) (f : Nat) (cl : Call α) : Prop := ∀ x, cl.on = some x → (a.b.sk.lab x).fam ≠ f

/-- Looking up the guard of a new slice, or done. -/
def making : Pc α → Prop
  | .gLoad .. | .gTry .. | .gPar .. | .gCas .. | .gRet .. | .done _ => True
  | _ => False

/-- Only calls made on a slice of the family have anything to do with it; or it is still being made. -/
structure Conf.FI (f : Nat) (c : Conf α) : Prop where
  split : f < c.a.b.sk.nfam →
    (∀ (i : Nat) cl, c.calls[i]? = some cl → Foreign c.a f cl → ∀ t ∈ callT cl, TQ (famOff f) c.a t) ∨
    ∃ j cl0, c.calls[j]? = some cl0 ∧ making cl0.pc ∧ (∀ k en, c.get k = some en → HQ (famOff f) c.a en.h) ∧
      ∀ (i : Nat) cl, i ≠ j → c.calls[i]? = some cl → ∀ t ∈ callT cl, TQ (famOff f) c.a t

/-- The families in use. -/
theorem tok_old {f : Nat} (B : c.BI) (F : c.GFI) (hf : c.a.b.sk.nfam ≤ f) {t : AT} (ht : t ∈ c.T) : TQ (famOff f) c.a t := by
  have famLt := B.heap.base.famLt
  cases t with
  | ref x =>
    intro hk
    have := famLt x (B.heap.lt (ref_mem_aS ht)) (by rw [hk]; simp)
    simp only [famOff]; omega
  | gd g =>
    obtain ⟨v, hv, _⟩ := BI_gd B.gi ht
    obtain ⟨h1, h2⟩ := F.gf.gof g (F.gf.lt g v hv)
    have := famLt _ h1 (by rw [h2]; simp)
    simp only [TQ, famOff]; omega
  | wk g =>
    obtain ⟨h1, h2⟩ := F.gf.gof g (Arc.GI.wlt B.gi g (List.mem_flatMap.2 ⟨_, ht, by simp⟩))
    have := famLt _ h1 (by rw [h2]; simp)
    simp only [TQ, famOff]; omega
  | _ => trivial

theorem ent_old {f : Nat} (B : c.BI) (hf : c.a.b.sk.nfam ≤ f) {k : Nat} {en : Ent} (hk : c.get k = some en) : HQ (famOff f) c.a en.h := by
  have famLt := B.heap.base.famLt
  obtain ⟨h, m⟩ := en
  have he := B.ents k _ hk
  cases h with
  | strong d g =>
    have := famLt d (B.heap.lt (ref_mem_aS (Conf.get_tok' hk (t := .ref d) (by simp [entT])))) (by rw [show c.a.b.sk.kind d = .data from he]; simp)
    simp only [HQ, famOff]; omega
  | weak d g =>
    intro x hx
    obtain ⟨h1, h2⟩ := he x hx
    have := famLt x h1 (by rw [h2]; simp)
    simp only [famOff]
    exact ⟨by omega, .inl (by omega)⟩
  | uniq r => trivial

/-- A new family comes only with a new slice. -/
theorem nfam_step {i : Nat} {cl : Call α} (B : c.BI) (hi : c.calls[i]? = some cl) (e : c.step i = .ok c') :
    c'.a.b.sk.nfam = c.a.b.sk.nfam ∨ (c'.hs = c.hs ∧ ∃ cl', c'.calls[i]? = some cl' ∧ making cl'.pc) := by
  have hlen := (List.getElem?_eq_some_iff.1 hi).1
  cases CStep.of e with
  | none h => exact .inl rfl
  | task cl0 t ts a' new hi0 ht e1 =>
    rw [hi] at hi0; cases hi0
    have I : HInv c.a.b (ataskT t ++ (ts.flatMap ataskT ++ (pcT cl.pc ++ c.rest i))) := by
      refine (B.heap.perm (Conf.T_perm hi)).count fun t ht' => ?_
      simp only [callT, ht, List.flatMap_cons, List.append_assoc]
    exact .inl (keep_task I ((B.calls i cl hi).2 t (by simp [ht])) e1).nfam
  | pc cl0 a' n hi0 ht e1 =>
    rw [hi] at hi0; cases hi0
    have I : HInv c.a.b (pcT cl.pc ++ c.rest i) := by
      refine (B.heap.perm (Conf.T_perm hi)).count fun t ht' => ?_
      simp only [callT, ht, List.flatMap_nil, List.nil_append]
    have s := PStep.of e1
    have key : calm cl.pc → a'.b.sk.nfam = c.a.b.sk.nfam := fun h => (keep_pc I s h).nfam
    have : a'.b.sk.nfam = c.a.b.sk.nfam ∨ (n.push = [] ∧ making n.pc) := by
      generalize hpc : cl.pc = pc at s key
      cases s with
      | new0 | new1 | immut => exact .inr ⟨rfl, trivial⟩
      | mutNew xs h r e4 =>
        refine .inl ?_
        simp only [mutFromBox] at e4
        split at e4 <;> cases e4 <;> rfl
      | nxt en r h o r' ts re hre e4 =>
        refine .inl ?_
        have : h.sk = c.a.b.sk := by
          simp only [iterNext] at e4
          split at e4
          · cases e4; rfl
          · split at e4
            · cases e4
            · split at e4
              · cases en <;> simp only at e4 <;> split at e4 <;> cases e4 <;> rfl
              · cases e4
        show h.sk.nfam = _
        rw [this]
      | _ => exact .inl (key trivial)
    rcases this with h | ⟨h1, h2⟩
    · exact .inl h
    · exact .inr ⟨by simp [Conf.after, h1], _, by simp [Conf.after, hlen]; rfl, h2⟩

theorem Foreign.back {a' : Arena α} {f : Nat} {cl cl' : Call α} {b : Bool} (A : c.IA b) (ge : GEvo c.a a') {i : Nat} (hi : c.calls[i]? = some cl)
    (ho : cl'.on = cl.on) (h : Foreign a' f cl') : Foreign c.a f cl := by
  intro x hx
  have := h x (by rw [ho]; exact hx)
  rwa [ge.evo.evo.lab x (A.clear.lt i cl x hi hx)] at this

theorem Foreign.bh {f : Nat} {cl : Call α} (N : c.NI) {i : Nat} (hi : c.calls[i]? = some cl) (h : Foreign c.a f cl) :
    ∀ hh, cl.bh c = some hh → HQ (famOff f) c.a hh := by
  intro hh hb
  obtain ⟨k, m, h1, h2⟩ := Conf.bh_get hb
  have h3 := (N.bor i cl k hi h1).2 _ h2
  cases hh with
  | strong d g => exact h d h3.symm
  | weak d g =>
    intro x hx
    subst hx
    exact ⟨h x h3.symm, .inl (h x h3.symm)⟩
  | uniq r => trivial

theorem making.step {a a' : Arena α} {pc : Pc α} {n : Next α} (h : making pc) (s : PStep a pc a' n) :
    making n.pc ∧ (n.push = [] ∨ (n.tasks = [] ∧ pcT n.pc = [])) := by
  cases s <;> simp_all [making, pcT]

theorem Conf.FI.step {f : Nat} {b : Bool} {i : Nat} (Q : c.FI f) (N : c.NI) (A : c.IA b) (e : c.step i = .ok c') : c'.FI f := by
  obtain ⟨c3, e3, A', ge⟩ := A.step (i := i)
  rw [e] at e3; cases e3
  cases hi : c.calls[i]? with
  | none =>
    have : c' = c := by simp only [Conf.step, hi, Except.ok.injEq] at e; exact e.symm
    subst this; exact Q
  | some cl =>
  refine ⟨fun hf' => ?_⟩
  have mono : ∀ {j : Nat} {clj : Call α} {t : AT}, c.calls[j]? = some clj → t ∈ callT clj → TQ (famOff f) c.a t → TQ (famOff f) c'.a t :=
    fun hj ht h => h.mono A.bi A.gf ge (Conf.call_tok hj ht)
  by_cases hf : f < c.a.b.sk.nfam
  · have O   := famOff_ok hf
    rcases Q.split hf with q | ⟨j, cl0, hj, hm, q1, q2⟩
    · refine .inl fun j clj hj hF t ht => ?_
      obtain ⟨cl1, h1, _, h3, h4⟩ := step_keep e hj
      have hF1 := hF.back A ge h1 h3
      by_cases hji : j = i
      · subst hji
        rw [hi] at h1; cases h1
        exact (zone_step A O hi (q j cl hi hF1) (hF1.bh N hi) e).1 clj hj t ht
      · cases h4 hji
        exact mono h1 ht (q j clj h1 hF1 t ht)
    · have others : ∀ (l : Nat) cll, l ≠ j → l ≠ i → c'.calls[l]? = some cll → ∀ t ∈ callT cll, TQ (famOff f) c'.a t := by
        intro l cll h1 h2 hl t ht
        obtain ⟨cl1, h3, _, _, h4⟩ := step_keep e hl
        cases h4 h2
        exact mono h3 ht (q2 l cll h1 h3 t ht)
      by_cases hij : i = j
      · subst hij
        rw [hi] at hj; cases hj
        have hlen := (List.getElem?_eq_some_iff.1 hi).1
        have keepB : c'.hs = c.hs → (∃ cl', c'.calls[i]? = some cl' ∧ making cl'.pc) → ∃ j cl0, c'.calls[j]? = some cl0 ∧ making cl0.pc ∧
            (∀ k en, c'.get k = some en → HQ (famOff f) c'.a en.h) ∧ ∀ (i : Nat) cl, i ≠ j → c'.calls[i]? = some cl → ∀ t ∈ callT cl, TQ (famOff f) c'.a t := by
          rintro hs ⟨cl', h1, h2⟩
          refine ⟨i, cl', h1, h2, fun k en hk => ?_, fun l cll hl => others l cll hl hl⟩
          have hk0 : c.get k = some en := by simp only [Conf.get, hs] at hk ⊢; exact hk
          exact (q1 k en hk0).mono A.bi ge hk0
        cases CStep.of e with
        | none h => rw [hi] at h; cases h
        | task cl1 t ts a' new hi0 ht e1 =>
          rw [hi] at hi0; cases hi0
          exact .inr (keepB (by simp [Conf.after]) ⟨{ cl with tasks := new ++ ts, out := cl.out ++ List.range' c.hs.length 0 }, by simp [Conf.after, hlen], hm⟩)
        | pc cl1 a' n hi0 ht e1 =>
          rw [hi] at hi0; cases hi0
          obtain ⟨m1, m2⟩ := hm.step (.of e1)
          rcases m2 with m2 | ⟨m2, m3⟩
          · exact .inr (keepB (by simp [Conf.after, m2]) ⟨_, by simp [Conf.after, hlen]; rfl, m1⟩)
          · refine .inl fun l cll hl _ t ht => ?_
            by_cases hli : l = i
            · subst hli
              rcases after_calls hi hl with ⟨_, rfl⟩ | ⟨h, _⟩
              · simp [callT, m2, m3] at ht
              · exact absurd rfl h
            · exact others l cll hli hli hl t ht
      · have hb : ∀ h, cl.bh c = some h → HQ (famOff f) c.a h := by
          intro h hh
          obtain ⟨k, m, _, h2⟩ := Conf.bh_get hh
          exact q1 k _ h2
        obtain ⟨z1, z2⟩ := zone_step A O hi (q2 i cl hij hi) hb e
        have hj' : c'.calls[j]? = some cl0 := by
          cases CStep.of e with
          | none h => exact hj
          | task cl0 t ts a' new hi0 ht e1 => simpa [Conf.after, List.getElem?_set_ne hij] using hj
          | pc cl0 a' n hi0 ht e1 => simpa [Conf.after, List.getElem?_set_ne hij] using hj
        refine .inr ⟨j, cl0, hj', hm, fun k en hk => ?_, fun l cll hl hcl => ?_⟩
        · rcases z2 k en hk with h | h
          · exact (q1 k en h).mono A.bi ge h
          · exact h
        · by_cases hli : l = i
          · subst hli; exact z1 cll hcl
          · exact others l cll hl hli hcl
  · rcases nfam_step A.bi hi e with h | ⟨hs, cl', h1, h2⟩
    · omega
    · refine .inr ⟨i, cl', h1, h2, fun k en hk => ?_, fun l cll hl hcl t ht => ?_⟩
      · have hk0 : c.get k = some en := by simp only [Conf.get, hs] at hk ⊢; exact hk
        exact (ent_old A.bi (by omega) hk0).mono A.bi ge hk0
      · obtain ⟨cl1, h3, _, _, h4⟩ := step_keep e hcl
        cases h4 hl
        exact mono h3 ht (tok_old A.bi A.gf (by omega) (Conf.call_tok h3 ht))

theorem Conf.FI.start {f : Nat} {b : Bool} {op : Op α} (Q : c.FI f) (A : c.IA b) (e : c.start op = some c') : c'.FI f := by
  have ha := (Conf.start_T e).2
  refine ⟨fun hf => ?_⟩
  rw [ha] at hf ⊢
  have O   := famOff_ok hf
  rcases Q.split hf with q | ⟨j, cl0, hj, hm, q1, q2⟩
  · refine .inl fun j clj hj hF t ht => ?_
    rcases start_call (.of e) hj with h | ⟨rfl, _⟩
    · exact q j clj h hF t ht
    · rcases start_tok (.of e) hj with h | ⟨h, _⟩
      · exact q _ clj h hF t ht
      · obtain ⟨k, en, h1, h2, h3⟩ := h t ht
        have h4 := (start_node (.of e) hj).1
        rw [h1] at h4
        have h4 : clj.on = nodeOf en.h := h4.trans (node_get h2)
        refine HQ.tok A.gf O h2 ?_ t h3
        cases hh : en.h with
        | strong d g => rw [hh] at h4; exact hF d h4
        | weak d g =>
          rw [hh] at h4
          intro x hx
          subst hx
          exact ⟨hF x h4, .inl (hF x h4)⟩
        | uniq r => trivial
  · refine .inr ⟨j, cl0, start_calls_old e hj, hm, fun k en hk => ?_, fun l cll hl hcl t ht => ?_⟩
    · rcases start_get (.of e) hk with h | ⟨_, _, rfl⟩ | ⟨d', g', _, h1, rfl⟩
      · exact q1 k en h
      · exact fun x hx => by cases hx
      · exact (q1 k ⟨.strong d' g', true⟩ h1)
    · rcases start_tok (.of e) hcl with h | ⟨h, _⟩
      · exact q2 l cll hl h t ht
      · obtain ⟨k, en, h1, h2, h3⟩ := h t ht
        exact HQ.tok A.gf O h2 (q1 k en h2) t h3

theorem Conf.FI.write {f : Nat} {b : Bool} {en : Ent} {j : Nat} {x : α} (Q : c.FI f) (A : c.IA b) (e : c.write en j x = .ok c') : c'.FI f := by
  have hsk : c'.a.b.sk = c.a.b.sk ∧ c'.a.gOf = c.a.gOf ∧ c'.hs = c.hs ∧ c'.calls = c.calls := by
    rcases Conf.write_cases e with rfl | ⟨_, _, rfl⟩ <;> exact ⟨rfl, rfl, rfl, rfl⟩
  obtain ⟨h1, h2, h3, h4⟩ := hsk
  have tq : ∀ t, TQ (famOff f) c'.a t ↔ TQ (famOff f) c.a t := fun t => by cases t <;> simp only [TQ, h1, h2]
  have hq : ∀ h, HQ (famOff f) c'.a h ↔ HQ (famOff f) c.a h := fun h => by cases h <;> simp only [HQ, h1]
  have fo : ∀ cl, Foreign c'.a f cl ↔ Foreign c.a f cl := fun cl => by simp only [Foreign, h1]
  obtain ⟨Q⟩ := Q
  refine ⟨?_⟩
  simpa only [Conf.get, h1, h3, h4, tq, hq, fo] using Q

theorem Conf.FI.panic {f : Nat} {b : Bool} {i : Nat} (Q : c.FI f) (A : c.IA b) (e : c.panic i = some c') : c'.FI f := by
  obtain ⟨cl, r, ts, ts', us, s, p⟩ := Panicked.of A.bi.heap e
  have h1 : c'.a.b.sk = c.a.b.sk := by rw [p.eq]; rfl
  have h2 : c'.a.gOf = c.a.gOf := by rw [p.eq]; rfl
  have tq : ∀ t, TQ (famOff f) c'.a t ↔ TQ (famOff f) c.a t := fun t => by cases t <;> simp only [TQ, h1, h2]
  have hq : ∀ h, HQ (famOff f) c'.a h ↔ HQ (famOff f) c.a h := fun h => by cases h <;> simp only [HQ, h1]
  have fo : ∀ cl, Foreign c'.a f cl ↔ Foreign c.a f cl := fun cl => by simp only [Foreign, h1]
  have back : ∀ {j : Nat} {clj : Call α}, c'.calls[j]? = some clj → ∃ cl0, c.calls[j]? = some cl0 ∧ cl0.on = clj.on := by
    intro j clj hj
    rcases p.calls hj with ⟨rfl, rfl⟩ | ⟨_, hj⟩
    · exact ⟨cl, p.call, rfl⟩
    · exact ⟨clj, hj, rfl⟩
  refine ⟨fun hf => ?_⟩
  rw [h1] at hf
  rcases Q.split hf with q | ⟨j, cl0, hj, hm, q1, q2⟩
  · refine .inl fun j clj hj hF t ht => ?_
    rw [tq]
    rcases panic_tok p hj ht with ⟨r, rfl⟩ | ⟨cl1, h3, h4⟩
    · trivial
    · obtain ⟨cl2, h5, h6⟩ := back hj
      rw [h3] at h5; cases h5
      exact q j cl1 h3 (fun x hx => (fo clj).1 hF x (h6 ▸ hx)) t h4
  · have hlen := (List.getElem?_eq_some_iff.1 p.call).1
    obtain ⟨cl0', h3, h4⟩ : ∃ cl0', c'.calls[j]? = some cl0' ∧ making cl0'.pc := by
      by_cases hji : i = j
      · subst hji
        refine ⟨{ cl with pc := .done .panic, tasks := .base (.dropReg r) :: (ts' ++ us) }, ?_, trivial⟩
        rw [p.eq]; simp [hlen]
      · exact ⟨cl0, by rw [p.eq]; simpa [List.getElem?_set_ne hji] using hj, hm⟩
    refine .inr ⟨j, cl0', h3, h4, fun k en hk => ?_, fun l cll hl hcl t ht => ?_⟩
    · rw [hq]; rw [p.get] at hk; exact q1 k en hk
    · rw [tq]
      rcases panic_tok p hcl ht with ⟨r, rfl⟩ | ⟨cl1, h3, h4⟩
      · trivial
      · exact q2 l cl1 hl h3 t h4

variable {P : Rules α} {zst : Bool}

theorem Conf.PReach.families (hP : PTame P) (h : Conf.PReach P zst c) (f : Nat) : c.NI ∧ c.FI f := by
  induction h with
  | init => exact ⟨⟨fun i cl k hi => by cases hi⟩, ⟨fun hf => absurd hf (Nat.not_lt_zero _)⟩⟩
  | run h i e ih => exact ⟨ih.1.step e, ih.2.step ih.1 (h.IA' hP) e⟩
  | start h op hp e ih => exact ⟨ih.1.start e, ih.2.start (h.IA' hP) e⟩
  | write h k en j x hk hw e ih => exact ⟨ih.1.write e, ih.2.write (h.IA' hP) e⟩
  | panic h i e ih => exact ⟨ih.1.panic (h.IA' hP).bi.heap e, ih.2.panic (h.IA' hP) e⟩

end
end Verif.Arc
