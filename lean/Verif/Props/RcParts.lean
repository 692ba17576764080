import Verif.Rc.Proofs.PartsInv
import Verif.Props.Iteration
/-!
# Iterators over the parts of shared slices, on the heap (C46-C48)
-/

namespace Verif
open Spec Rc
variable {α : Type} {umax : Nat} {zst : Bool}

/-! ## Words for the statements -/

/-- The end at which this call asks iterator `j` for a part. -/
def Rc.POp.endOn (j : Nat) : POp α → Option End
  | .nextPart e j' => if j' = j then some e else none
  | _ => none

/-- The walk that iterator `j` is put through: the calls of `next` and `next_back` on it. -/
def walkOn (j : Nat) (ops : List (POp α)) : List End := ops.filterMap (POp.endOn j)

/-- What those calls return: buffer, position and length of each part. -/
def partsFrom (j : Nat) (ops : List (POp α)) (os : List (PObs α)) : List (Option (Nat × Nat × Nat)) :=
  (ops.zip os).filterMap fun (x, o) => (POp.endOn j x).map fun _ =>
    match o with
    | .part _ b off len => some (b, off, len)
    | _ => none

/-- A part, in its buffer. -/
def inBuf (b : Nat) (r : Rng) : Nat × Nat × Nat := (b, r.off, r.len)

/-- The items that are alive in a range of a buffer. -/
def livesIn (h : Heap α) (b : Nat) (r : Rng) : List α :=
  r.items.filterMap fun i => match h.slot b i with
    | .live a => some a
    | _ => none

/-- Iterator `j` shows item `i` of buffer `b`: the item lies in its `as_slice`. -/
def Rc.PState.Shows (umax : Nat) (p : PState α) (j b i : Nat) : Prop :=
  ∃ it off len, p.iter j = some it ∧ iterRange umax p.st it = .ok (some (b, off, len)) ∧ off ≤ i ∧ i < off + len

/-! ## Walks, in general -/

theorem prun_walk (j : Nat) (xs : List (POp α)) : ∀ {p p' : PState α} {w : World α} {it : BinaryPartsIter Nat} {fam m f b : Nat} {q : List Side} {os : List (PObs α)},
    PInv umax zst p w → p.iter j = some it → ItAt umax w fam q m f b it → prun umax p xs = .ok (p', os) → POp.dropParts j ∉ xs →
    ∃ it' w', PInv umax zst p' w' ∧ p'.iter j = some it' ∧ (∃ l, w'.fams = w.fams ++ l) ∧
      ItAt umax w' fam q m (cnts (walkOn j xs) (2 ^ m) f b).1 (cnts (walkOn j xs) (2 ^ m) f b).2 it' ∧
      partsFrom j xs os = (deqRun (walkOn j xs) (win (rparts m (w.rangeOf fam q)) f b)).1.map (Option.map (inBuf (w.fam fam).buf)) := by
  induction xs with
  | nil =>
    intro p p' w it fam m f b q os I hj hi hr _
    cases hr
    exact ⟨it, w, I, hj, ⟨[], by simp⟩, hi, rfl⟩
  | cons x xs ih =>
    intro p p' w it fam m f b q os I hj hi hr hd
    have hd1 : x ≠ .dropParts j := fun h => hd (by simp [h])
    have hd2 : POp.dropParts j ∉ xs := fun h => hd (by simp [h])
    -- what the first call does to the iterator
    have key : ∃ p1 o w1 it1 f1 b1, pcall umax p x = .ok (p1, o) ∧ PInv umax zst p1 w1 ∧ p1.iter j = some it1 ∧ (∃ l, w1.fams = w.fams ++ l) ∧
        ItAt umax w1 fam q m f1 b1 it1 ∧
        ((POp.endOn j x = none ∧ f1 = f ∧ b1 = b) ∨
          (∃ e, POp.endOn j x = some e ∧ (f + b = 2 ^ m ∧ o = .none ∧ f1 = f ∧ b1 = b ∨
            f + b < 2 ^ m ∧ f1 = nextF e f ∧ b1 = nextB e b ∧ ∃ k r, o = .part k (w.fam fam).buf r.off r.len ∧
              (rparts m (w.rangeOf fam q))[nextIdx e m f b]? = some r))) := by
      have other : (∀ e, x ≠ .nextPart e j) → POp.endOn j x = none := by
        intro h
        cases x with
        | nextPart e j' =>
          simp only [POp.endOn]
          split
          · rename_i ej; subst ej; exact absurd rfl (h e)
          · rfl
        | _ => rfl
      by_cases hx : ∃ e, x = .nextPart e j
      · obtain ⟨e, rfl⟩ := hx
        have he : POp.endOn j (.nextPart e j : POp α) = some e := by simp [POp.endOn]
        by_cases hfb : f + b = 2 ^ m
        · exact ⟨p, _, w, it, f, b, pcall_next_done hj hi hfb e, I, hj, ⟨[], by simp⟩, hi, .inr ⟨e, he, .inl ⟨hfb, rfl, rfl, rfl⟩⟩⟩
        · have hlt : f + b < 2 ^ m := by have := hi.le; omega
          obtain ⟨k, it', s', w', r, h1, h2, Y, _, _, S⟩ := pcall_next I hj hi hlt e
          exact ⟨_, _, w', it', _, _, h1, S.inv, iter_set_self hj, S.fams, Y.now, .inr ⟨e, he, .inr ⟨hlt, rfl, rfl, k, r, rfl, h2⟩⟩⟩
      · have hx' : ∀ e, x ≠ .nextPart e j := fun e h => hx ⟨e, h⟩
        obtain ⟨p1, o, w1, e1, S⟩ := pcall_ok I x
        obtain ⟨g1, g2⟩ := S.keep j it hj hd1 hx'
        exact ⟨p1, o, w1, it, f, b, e1, S.inv, g1, S.fams, g2 _ _ _ _ _ hi, .inl ⟨other hx', rfl, rfl⟩⟩
    obtain ⟨p1, o, w1, it1, f1, b1, e1, I1, hj1, ⟨l1, hl1⟩, hi1, hcase⟩ := key
    rw [prun_cons e1] at hr
    cases e2 : prun umax p1 xs with
    | error e => rw [e2] at hr; cases hr
    | ok y =>
      rw [e2] at hr
      simp only [Except.map, Except.ok.injEq, Prod.mk.injEq] at hr
      obtain ⟨rfl, rfl⟩ := hr
      obtain ⟨it2, w2, I2, hj2, ⟨l2, hl2⟩, hi2, hp⟩ := ih (os := y.2) I1 hj1 hi1 e2 hd2
      have hfam : w1.fam fam = w.fam fam := World.fam_append hl1 hi.fam_lt
      have hrng : w1.rangeOf fam q = w.rangeOf fam q := by simp only [World.rangeOf, hfam]
      rw [hfam, hrng] at hp
      refine ⟨it2, w2, I2, hj2, ⟨l1 ++ l2, by rw [hl2, hl1, List.append_assoc]⟩, ?_, ?_⟩
      · rcases hcase with ⟨he, rfl, rfl⟩ | ⟨e, he, ⟨hfb, _, rfl, rfl⟩ | ⟨hlt, rfl, rfl, _⟩⟩
        · simp only [walkOn, List.filterMap_cons, he]; exact hi2
        · simp only [walkOn, List.filterMap_cons, he, cnts]
          rw [if_neg (by omega)]; exact hi2
        · simp only [walkOn, List.filterMap_cons, he, cnts, if_pos hlt]
          cases e <;> exact hi2
      · have hlen : (rparts m (w.rangeOf fam q)).length = 2 ^ m := parts_length ..
        rcases hcase with ⟨he, rfl, rfl⟩ | ⟨e, he, ⟨hfb, rfl, rfl, rfl⟩ | ⟨hlt, rfl, rfl, k, r, rfl, hr⟩⟩
        · simp only [walkOn, partsFrom, List.zip_cons_cons, List.filterMap_cons, he, Option.map_none]; exact hp
        · have hw : win (rparts m (w.rangeOf fam q)) f1 b1 = [] := win_done _ (by omega)
          simp only [walkOn, partsFrom, List.zip_cons_cons, List.filterMap_cons, he, Option.map_some, deqRun]
          have : deqStep e (win (rparts m (w.rangeOf fam q)) f1 b1) = (none, win (rparts m (w.rangeOf fam q)) f1 b1) := by
            rw [hw]; cases e <;> rfl
          rw [this]
          simp only [List.map_cons, Option.map_none, List.cons.injEq, true_and]; exact hp
        · simp only [walkOn, partsFrom, List.zip_cons_cons, List.filterMap_cons, he, Option.map_some, deqRun]
          have : deqStep e (win (rparts m (w.rangeOf fam q)) f b) = (some r, win (rparts m (w.rangeOf fam q)) (nextF e f) (nextB e b)) := by
            cases e
            · simp only [deqStep, win_tail, nextF, nextB]
              rw [win_head _ (by omega)]; simp only [nextIdx] at hr; rw [hr]
            · simp only [deqStep, win_dropLast, nextF, nextB]
              rw [win_last _ (by omega), hlen]; simp only [nextIdx] at hr; rw [hr]
          rw [this]
          simp only [List.map_cons, Option.map_some, List.cons.injEq]; exact ⟨rfl, hp⟩

/-! ## C46 -/

/-- C46: whatever calls are made on handles and on iterators over shared parts, nothing
undefined happens, and every call returns. -/
theorem C46_safe (umax : Nat) (zst : Bool) (ops : List (POp α)) : ∃ p os, prun umax (PState.empty zst) ops = .ok (p, os) ∧ os.length = ops.length := by
  obtain ⟨p, os, _, e, _⟩ := prun_ok (umax := umax) ops (PInv.init (α := α) (umax := umax) (zst := zst))
  refine ⟨p, os, e, ?_⟩
  have : ∀ (xs : List (POp α)) (p p' : PState α) (os : List (PObs α)), prun umax p xs = .ok (p', os) → os.length = xs.length := by
    intro xs
    induction xs with
    | nil => intro p p' os h; cases h; rfl
    | cons x xs ih =>
      intro p p' os h
      cases hc : pcall umax p x with
      | error e => simp only [prun, hc, bind, Except.bind] at h; cases h
      | ok q =>
        rw [prun_cons hc] at h
        cases hr : prun umax q.1 xs with
        | error e => rw [hr] at h; cases h
        | ok q2 =>
          rw [hr] at h
          simp only [Except.map, Except.ok.injEq, Prod.mk.injEq] at h
          obtain ⟨rfl, rfl⟩ := h
          simp only [List.length_cons, ih q.1 q2.1 q2.2 hr]
  exact this ops _ _ _ e

/-- C46: the heap, the reference counts and the handles are always those after some history of
calls without such iterators, and calls on the handles the user holds return what they return
after that history. So whatever is proved of histories without these iterators holds of the
handles in histories with them. -/
theorem C46_handles {ops : List (POp α)} {p : PState α} (h : pafter umax zst ops = .ok p) :
    ∃ bops, after umax zst bops = .ok p.st ∧
      ∀ op, (∀ k, op.on = some k → k ∉ p.hidden) → panswer umax zst ops (.base op) = (answer umax zst bops op).map .base := by
  obtain ⟨w, I⟩ := PInv.of_after h
  obtain ⟨bops, hb, rfl⟩ := I.base
  refine ⟨bops, hb, fun op ho => ?_⟩
  obtain ⟨s', e1, e2, _⟩ := pcall_base I ho
  rw [panswer_of h, e1]
  simp only [answer, hb, Except.bind, e2]; rfl

/-- C46: a handle the user holds goes on giving the same items, whatever is done to iterators
and to other handles. -/
theorem C46_read_stable {ops more : List (POp α)} {p : PState α} {k : Nat} {xs : List α} (h : pafter umax zst ops = .ok p)
    (hr : panswer umax zst ops (.base (.read k)) = .ok (.base (.items xs))) (hu : ∀ x ∈ more, x.on ≠ some k) :
    panswer umax zst (ops ++ more) (.base (.read k)) = .ok (.base (.items xs)) := by
  obtain ⟨w, I⟩ := PInv.of_after h
  obtain ⟨p', os, w', e, S⟩ := prun_ok (umax := umax) more I
  have hk : k ∉ p.hidden := by
    intro hk
    rw [panswer_of h, pcall_base_invalid (op := .read k) rfl hk] at hr; cases hr
  obtain ⟨bops, hb, rfl⟩ := I.base
  obtain ⟨s1, e1, e2, _⟩ := pcall_base I (op := .read k) (fun k' h' => by cases h'; exact hk)
  rw [panswer_of h, e1] at hr
  simp only [Except.map, Except.ok.injEq, PObs.base.injEq] at hr
  have ha : answer umax zst bops (.read k) = .ok (.items xs) := by
    simp only [answer, hb, Except.bind, e2]; simp only [Except.map, hr]
  have hlt : k < (World.after umax zst bops).hs.length := by
    rw [answer_eq] at ha
    cases e : (World.after umax zst bops).get k with
    | none => simp only [World.act, e] at ha; cases ha
    | some y => exact World.get_lt e
  have out : ∀ {P : Prop}, (k ∈ p.hidden ∨ (World.after umax zst bops).hs.length ≤ k ∨ ∃ x ∈ more, x.on = some k) → P := by
    rintro P (h | h | ⟨x, hx, h⟩)
    · exact absurd h hk
    · omega
    · exact absurd h (hu x hx)
  obtain ⟨bmore, bos, r1, r2, r3⟩ := S.runs
  have hun : Unused k bmore := fun op ho hk' => out (r3 op ho k hk')
  have ha' := C25_read_stable ha hun
  have hk2 : k ∉ p'.hidden := fun h => out (S.hid k h)
  obtain ⟨s2, e3, e4, _⟩ := pcall_base S.inv (op := .read k) (fun k' h' => by cases h'; exact hk2)
  rw [panswer_of (pafter_append h e), e3]
  have hb2 := after_run hb r1
  simp only [answer, hb2, Except.bind, e4, Except.map, Except.ok.injEq] at ha'
  simp only [Except.map, ha']

/-- C46: `split_into_parts` with a power of two, `next`, `next_back`, `clone`, `len` and `as_slice`
change and drop no item, and free no memory. -/
theorem C46_quiet {ops : List (POp α)} {x : POp α} {p p' : PState α} (h : pafter umax zst ops = .ok p) (h' : pafter umax zst (ops ++ [x]) = .ok p')
    (hx : (∃ k m, x = .intoParts k (2 ^ m)) ∨ (∃ e j, x = .nextPart e j) ∨ (∃ j cap, x = .cloneParts j cap) ∨ (∃ j, x = .len j) ∨ ∃ j, x = .asSlice j) :
    p'.st.h.slot = p.st.h.slot ∧ p'.st.h.sk.mem = p.st.h.sk.mem := by
  obtain ⟨w, I⟩ := PInv.of_after h
  obtain ⟨os, hp⟩ := pafter_split h h'
  have res : ∀ {p1 : PState α} {o : PObs α} {w1 : World α}, pcall umax p x = .ok (p1, o) → PInv umax zst p1 w1 → w1.items = w.items → w1.mem = w.mem →
      p'.st.h.slot = p.st.h.slot ∧ p'.st.h.sk.mem = p.st.h.sk.mem := by
    intro p1 o w1 e I1 hi hm
    rw [prun_cons e] at hp
    simp only [prun, Except.map, Except.ok.injEq, Prod.mk.injEq] at hp
    obtain ⟨rfl, _⟩ := hp
    exact ⟨by rw [← I1.rel.core.items, ← I.rel.core.items, hi], by rw [← I1.rel.core.mem, ← I.rel.core.mem, hm]⟩
  rcases hx with ⟨k, m, rfl⟩ | ⟨e, j, rfl⟩ | ⟨j, cap, rfl⟩ | ⟨j, rfl⟩ | ⟨j, rfl⟩
  · by_cases hv : (∀ fam q, w.get k ≠ some (.shared fam q)) ∨ k ∈ p.hidden ∨ umax < 2 ^ m
    · exact res (pcall_intoParts_invalid I hv) I rfl rfl
    · have h1 : ∃ fam q, w.get k = some (.shared fam q) := by
        apply Classical.byContradiction; intro hn; exact hv (.inl fun fam q e => hn ⟨fam, q, e⟩)
      obtain ⟨fam, q, hk⟩ := h1
      obtain ⟨it, e, _, _, S⟩ := pcall_intoParts I hk (fun h' => hv (.inr (.inl h'))) (Nat.le_of_not_lt fun h' => hv (.inr (.inr h')))
      exact res e S.inv rfl rfl
  · cases hj : p.iter j with
    | none => exact res (pcall_no_iter hj e 0).1 I rfl rfl
    | some it =>
      obtain ⟨⟨fam, q, m, f, b, hi⟩, _⟩ := I.its j it hj
      by_cases hfb : f + b = 2 ^ m
      · exact res (pcall_next_done hj hi hfb e) I rfl rfl
      · obtain ⟨k, it', s', w', r, h1, _, Y, _, _, S⟩ := pcall_next I hj hi (by have := hi.le; omega) e
        exact res h1 S.inv Y.mv.items Y.mv.mem
  · cases hj : p.iter j with
    | none => exact res (pcall_no_iter hj .front cap).2.2.2.1 I rfl rfl
    | some it =>
      obtain ⟨⟨fam, q, m, f, b, hi⟩, _⟩ := I.its j it hj
      by_cases hc : it.deque.items.length ≤ cap
      · obtain ⟨it', s', w', h1, _, M, S⟩ := pcall_clone I hj hi hc
        exact res h1 S.inv M.items M.mem
      · exact res (pcall_clone_invalid hj (by omega)) I rfl rfl
  · cases hj : p.iter j with
    | none => exact res (pcall_no_iter hj .front 0).2.2.1 I rfl rfl
    | some it =>
      obtain ⟨⟨fam, q, m, f, b, hi⟩, _⟩ := I.its j it hj
      exact res (pcall_len hj hi) I rfl rfl
  · cases hj : p.iter j with
    | none => exact res (pcall_no_iter hj .front 0).2.1 I rfl rfl
    | some it =>
      obtain ⟨⟨fam, q, m, f, b, hi⟩, _⟩ := I.its j it hj
      exact res (pcall_asSlice I hj hi) I rfl rfl

/-- C46: `split_into_parts` panics for every number that is not a power of two, and the slice it
consumed is dropped, exactly as `drop` would have done. -/
theorem C46_bad_count {ops : List (POp α)} {p : PState α} {k n d i : Nat} (h : pafter umax zst ops = .ok p) (hk : p.st.get k = some (.strong d i))
    (hh : k ∉ p.hidden) (hu : n ≤ umax) (hn : ¬ ∃ m, n = 2 ^ m) :
    panswer umax zst ops (.intoParts k n) = .ok .panicked ∧
      pafter umax zst (ops ++ [.intoParts k n]) = pafter umax zst (ops ++ [.base (.drop k)]) := by
  obtain ⟨w, I⟩ := PInv.of_after h
  obtain ⟨f, q, hw⟩ := strong_shared I.rel hk
  obtain ⟨s1, e1, e2, S1⟩ := pcall_intoParts_bad I hw hh hu hn
  obtain ⟨s2, e3, e4, S2⟩ := pcall_base I (op := .drop k) (fun k' h' => by cases h'; exact hh)
  rw [e2] at e4; cases e4
  refine ⟨by rw [panswer_of h, e1]; rfl, ?_⟩
  rw [pafter_append (os := [.panicked]) h (by rw [prun_cons e1]; rfl), pafter_append (os := [_]) h (by rw [prun_cons e3]; rfl)]

/-! ## C47 -/

theorem livesIn_look {s : State α} {w : World α} (R : Rel umax s w []) (b : Nat) (r : Rng) : livesIn s.h b r = w.look b r := by
  simp only [livesIn, World.look, R.core.items]; rfl

theorem look_flat (w : World α) (b : Nat) (xs : List Rng) : (xs.flatMap (w.look b)) = (xs.flatMap Rng.items).filterMap fun i => match w.items b i with
    | .live a => some a
    | _ => none := by
  induction xs with
  | nil => rfl
  | cons x xs ih => simp only [List.flatMap_cons, ih, List.filterMap_append, World.look]; rfl

/-- C47: from the moment a shared slice is turned into an iterator over `2^m` parts, and as long
as the iterator is not dropped, whatever other calls are made in between (on handles, on other
iterators, on the parts already yielded), its `next` and `next_back` return, in order, the
parts that repeated halving gives, each exactly once, from the two ends; `len` is the number of
parts left, and `as_slice` gives exactly their items, all alive. -/
theorem C47_walk {ops more : List (POp α)} {p p' : PState α} {k m d i b off len : Nat} {o : PObs α} {os : List (PObs α)}
    (h : pafter umax zst ops = .ok p) (hk : p.st.get k = some (.strong d i)) (hh : k ∉ p.hidden)
    (hp : handleRange umax p.st.h (.strong d i) = .ok (some (b, off, len))) (hm : 2 ^ m ≤ umax)
    (hr : prun umax p (.intoParts k (2 ^ m) :: more) = .ok (p', o :: os)) (hd : POp.dropParts p.its.length ∉ more) :
    let rest := (deqRun (walkOn p.its.length more) (rparts m ⟨off, len⟩)).2
    o = .iter ∧
    partsFrom p.its.length more os = (deqRun (walkOn p.its.length more) (rparts m ⟨off, len⟩)).1.map (Option.map (inBuf b)) ∧
    pcall umax p' (.len p.its.length) = .ok (p', .count rest.length) ∧
    pcall umax p' (.asSlice p.its.length) = .ok (p', .items (rest.flatMap (livesIn p'.st.h b))) ∧
    ∀ r ∈ rest, ∀ i ∈ r.items, ∃ a, p'.st.h.slot b i = .live a := by
  intro rest
  obtain ⟨w, I⟩ := PInv.of_after h
  obtain ⟨fam, q, hw⟩ := strong_shared I.rel hk
  obtain ⟨it, e1, _, hi, S⟩ := pcall_intoParts I hw hh hm
  have hpl := place_ok I.rel hw
  simp only [place, hk, hp, Except.ok.injEq, Prod.mk.injEq] at hpl
  obtain ⟨rfl, rfl, rfl⟩ := hpl
  rw [prun_cons e1] at hr
  cases e2 : prun umax { p with its := p.its ++ [some it] } more with
  | error e => rw [e2] at hr; cases hr
  | ok y =>
    rw [e2] at hr
    simp only [Except.map, Except.ok.injEq, Prod.mk.injEq, List.cons.injEq] at hr
    obtain ⟨rfl, rfl, rfl⟩ := hr
    obtain ⟨it', w', I', hj', ⟨l, hl⟩, hi', hpf⟩ := prun_walk p.its.length more S.inv (iter_push_self (p := p) _ _) hi e2 hd
    have hfam : w'.fam fam = w.fam fam := World.fam_append hl hi.fam_lt
    have hrng : w'.rangeOf fam q = w.rangeOf fam q := by simp only [World.rangeOf, hfam]
    have hrest : rest = win (rparts m (w.rangeOf fam q)) (cnts (walkOn p.its.length more) (2 ^ m) 0 0).1 (cnts (walkOn p.its.length more) (2 ^ m) 0 0).2 :=
      remaining_win m _ _
    have ht := win_tiles m _ _ (w.rangeOf fam q) hi'.le
    rw [← hrest] at ht
    rw [win_zero] at hpf
    refine ⟨rfl, hpf, ?_, ?_, ?_⟩
    · rw [pcall_len hj' hi', hrest, win_length, parts_length]
    · rw [pcall_asSlice I' hj' hi', hrng, hfam]
      simp only [Except.ok.injEq, Prod.mk.injEq, PObs.items.injEq, true_and]
      have : rest.flatMap (livesIn y.1.st.h (w.fam fam).buf) = rest.flatMap (w'.look (w.fam fam).buf) := by
        congr 1; funext r; exact livesIn_look I'.rel _ r
      rw [this, look_flat, ht.items.1]; rfl
    · intro r hr i hi2
      have hmem : i ∈ rest.flatMap Rng.items := List.mem_flatMap.2 ⟨r, hr, hi2⟩
      rw [ht.items.1, List.mem_range'_1] at hmem
      obtain ⟨k', _, p', e, hc⟩ := (hi'.has_iff i).1 (by rw [hrng]; omega)
      obtain ⟨bops, hb, hwb⟩ := I'.base
      refine (C15_alive_iff_shown hb _ _).2 ⟨k', (I'.rel.sees_of e).2 ?_⟩
      simp only [World.covers, hfam, beq_self_eq_true, hc, Bool.and_self]

/-- C47: what an iterator yields depends on nothing but the walk it is put through, and a clone,
wherever the walk of the original stands, yields what the original would: cloning gives two
independent iterators over the parts still to come. -/
theorem C47_clone {ops more more' : List (POp α)} {p p' p'' : PState α} {j cap : Nat} {os os' : List (PObs α)}
    (h : pafter umax zst ops = .ok p) (hr : prun umax p (.cloneParts j cap :: more) = .ok (p', .iter :: os))
    (hr' : prun umax p more' = .ok (p'', os')) (hd' : POp.dropParts j ∉ more') :
    (POp.dropParts j ∉ more → walkOn j more = walkOn j more' → partsFrom j more os = partsFrom j more' os') ∧
    (POp.dropParts p.its.length ∉ more → walkOn p.its.length more = walkOn j more' → partsFrom p.its.length more os = partsFrom j more' os') := by
  obtain ⟨w, I⟩ := PInv.of_after h
  cases hj : p.iter j with
  | none => rw [prun_cons (pcall_no_iter hj .front cap).2.2.2.1] at hr; revert hr; cases prun umax p more <;> simp [Except.map]
  | some it =>
    obtain ⟨⟨fam, q, m, f, b, hi⟩, _⟩ := I.its j it hj
    by_cases hc : it.deque.items.length ≤ cap
    · obtain ⟨it', s', w', h1, hi', M, S⟩ := pcall_clone I hj hi hc
      rw [prun_cons h1] at hr
      cases e2 : prun umax ⟨s', p.its ++ [some it']⟩ more with
      | error e => rw [e2] at hr; cases hr
      | ok y =>
        rw [e2] at hr
        simp only [Except.map, Except.ok.injEq, Prod.mk.injEq, List.cons.injEq, true_and] at hr
        obtain ⟨rfl, rfl⟩ := hr
        have hfam : w'.fam fam = w.fam fam := by simp only [World.fam, M.fams]
        have hrng : w'.rangeOf fam q = w.rangeOf fam q := by simp only [World.rangeOf, hfam]
        obtain ⟨_, _, _, _, _, _, g0⟩ := prun_walk j more' I hj hi hr' hd'
        constructor
        · intro hd he
          obtain ⟨k1, k2⟩ := S.keep j it hj (by simp) (by simp)
          obtain ⟨_, _, _, _, _, _, g1⟩ := prun_walk j more S.inv k1 (k2 _ _ _ _ _ hi) e2 hd
          rw [g1, g0, hfam, hrng, he]
        · intro hd he
          obtain ⟨_, _, _, _, _, _, g1⟩ := prun_walk p.its.length more S.inv (iter_push_self (p := p) _ _) hi' e2 hd
          rw [g1, g0, hfam, hrng, he]
    · rw [prun_cons (pcall_clone_invalid hj (by omega))] at hr; revert hr; cases prun umax p more <;> simp [Except.map]

/-- C47: a part is a handle of its own, an `RcSlice` that shows exactly the items of the part; it is
none of the handles the user already had. -/
theorem C47_part {ops : List (POp α)} {p p' : PState α} {e : End} {j k b off len : Nat} (h : pafter umax zst ops = .ok p)
    (ha : panswer umax zst ops (.nextPart e j) = .ok (.part k b off len)) (h' : pafter umax zst (ops ++ [.nextPart e j]) = .ok p') :
    (∃ d i, p'.st.get k = some (.strong d i) ∧ handleRange umax p'.st.h (.strong d i) = .ok (some (b, off, len))) ∧
    k ∉ p'.hidden ∧ (p.st.get k = none ∨ k ∈ p.hidden) := by
  obtain ⟨w, I⟩ := PInv.of_after h
  obtain ⟨os, hp⟩ := pafter_split h h'
  rw [panswer_of h] at ha
  cases hj : p.iter j with
  | none => rw [(pcall_no_iter hj e 0).1] at ha; cases ha
  | some it =>
    obtain ⟨⟨fam, q, m, f, b', hi⟩, _⟩ := I.its j it hj
    by_cases hfb : f + b' = 2 ^ m
    · rw [pcall_next_done hj hi hfb e] at ha; cases ha
    · obtain ⟨k', it', s', w', r, h1, _, Y, ⟨q', g1, g2⟩, hn, S⟩ := pcall_next I hj hi (by have := hi.le; omega) e
      rw [h1] at ha
      simp only [Except.map, Except.ok.injEq, PObs.part.injEq] at ha
      obtain ⟨rfl, rfl, rfl, rfl⟩ := ha
      rw [prun_cons h1] at hp
      simp only [prun, Except.map, Except.ok.injEq, Prod.mk.injEq] at hp
      obtain ⟨rfl, _⟩ := hp
      refine ⟨?_, hn, ?_⟩
      · obtain ⟨d, i, hs⟩ := shared_strong Y.mv.rel g1
        refine ⟨d, i, hs, ?_⟩
        have hpl := place_ok Y.mv.rel g1
        have hfam : w'.fam fam = w.fam fam := by simp only [World.fam, Y.mv.fams]
        simp only [g2, hfam, place, hs] at hpl
        split at hpl
        · cases hpl; assumption
        · cases hpl
        · cases hpl
      · rcases Y.from_ k' (by simp) with h | h
        · exact .inr (mem_hidden.2 ⟨j, it, hj, h⟩)
        · left
          rcases I.rel.at_ k' with ⟨e, _⟩ | ⟨_, _, _, e, _⟩
          · exact e
          · have := World.get_lt e; omega

/-! ## C48 -/

section
variable {p : PState α} {w : World α}

/-- What an iterator shows is what the slices in it show. -/
theorem shows_iff (I : PInv umax zst p w) (j b i : Nat) :
    p.Shows umax j b i ↔ ∃ it k, p.iter j = some it ∧ k ∈ it.deque.items ∧ p.st.Sees umax k b i := by
  have aux : ∀ it, p.iter j = some it → ((∃ off len, iterRange umax p.st it = .ok (some (b, off, len)) ∧ off ≤ i ∧ i < off + len) ↔
      ∃ k ∈ it.deque.items, p.st.Sees umax k b i) := by
    intro it hj
    obtain ⟨⟨fam, q, m, f, b', hi⟩, _⟩ := I.its j it hj
    have hr := iterRange_ok I.rel hi
    have hh := hi.has_iff i
    have sees : ∀ k ∈ it.deque.items, (p.st.Sees umax k b i ↔ (w.fam fam).buf = b ∧ ∃ q, w.get k = some (.shared fam q) ∧ (w.rangeOf fam q).has i = true) := by
      intro k hk
      obtain ⟨q', _, e⟩ := hi.at_.mem hk
      rw [I.rel.sees_of e]
      simp only [World.covers, Bool.and_eq_true, beq_iff_eq, e, Option.some.injEq, Hand.shared.injEq, true_and, exists_eq_left']
    rw [hr]
    by_cases hfb : f + b' = 2 ^ m
    · rw [if_pos hfb]
      have hno : ¬ ∃ k ∈ it.deque.items, p.st.Sees umax k b i := by
        rintro ⟨k, hk, hs⟩
        obtain ⟨_, q', e, hc⟩ := (sees k hk).1 hs
        have h1 := hh.2 ⟨k, hk, q', e, hc⟩
        have : 2 ^ m - b' = f := by omega
        rw [this] at h1; omega
      simp only [Except.ok.injEq, reduceCtorEq, false_and, exists_false, false_iff]; exact hno
    · rw [if_neg hfb]
      constructor
      · rintro ⟨off, len, e, h1, h2⟩
        simp only [Except.ok.injEq, Option.some.injEq, Prod.mk.injEq] at e
        obtain ⟨rfl, rfl, rfl⟩ := e
        obtain ⟨k, hk, q', e, hc⟩ := hh.1 (by omega)
        exact ⟨k, hk, (sees k hk).2 ⟨rfl, q', e, hc⟩⟩
      · rintro ⟨k, hk, hs⟩
        obtain ⟨rfl, q', e, hc⟩ := (sees k hk).1 hs
        have h1 := hh.2 ⟨k, hk, q', e, hc⟩
        exact ⟨_, _, rfl, h1.1, by omega⟩
  constructor
  · rintro ⟨it, off, len, hj, h1, h2⟩
    obtain ⟨k, hk, hs⟩ := (aux it hj).1 ⟨off, len, h1, h2⟩
    exact ⟨it, k, hj, hk, hs⟩
  · rintro ⟨it, k, hj, hk, hs⟩
    obtain ⟨off, len, h1, h2⟩ := (aux it hj).2 ⟨k, hk, hs⟩
    exact ⟨it, off, len, hj, h1, h2⟩

theorem sees_split (I : PInv umax zst p w) (b i : Nat) :
    (∃ k, p.st.Sees umax k b i) ↔ (∃ k, k ∉ p.hidden ∧ p.st.Sees umax k b i) ∨ ∃ j, p.Shows umax j b i := by
  constructor
  · rintro ⟨k, hk⟩
    by_cases hh : k ∈ p.hidden
    · obtain ⟨j, it, h1, h2⟩ := mem_hidden.1 hh
      exact .inr ⟨j, (shows_iff I j b i).2 ⟨it, k, h1, h2, hk⟩⟩
    · exact .inl ⟨k, hh, hk⟩
  · rintro (⟨k, _, h⟩ | ⟨j, h⟩)
    · exact ⟨k, h⟩
    · obtain ⟨it, k, _, _, h⟩ := (shows_iff I j b i).1 h; exact ⟨k, h⟩

end

/-- C48: an item is alive exactly as long as a handle of the user or an iterator over parts shows it:
an iterator keeps alive exactly the parts it has not yielded. -/
theorem C48_alive_iff {ops : List (POp α)} {p : PState α} (h : pafter umax zst ops = .ok p) (b i : Nat) :
    (∃ a, p.st.h.slot b i = .live a) ↔ (∃ k, k ∉ p.hidden ∧ p.st.Sees umax k b i) ∨ ∃ j, p.Shows umax j b i := by
  obtain ⟨w, I⟩ := PInv.of_after h
  obtain ⟨bops, hb, _⟩ := I.base
  rw [C15_alive_iff_shown hb, sees_split I]

/-- C48: a unique slice, an item iterator or a parts iterator of a unique slice never shows an item that
an iterator over shared parts shows. -/
theorem C48_unique {ops : List (POp α)} {p : PState α} {k b i : Nat} {x : Handle} (h : pafter umax zst ops = .ok p) (hk : p.st.get k = some x)
    (hx : ∀ d i, x ≠ .strong d i) (hs : p.st.Sees umax k b i) (j : Nat) : ¬ p.Shows umax j b i := by
  obtain ⟨w, I⟩ := PInv.of_after h
  obtain ⟨bops, hb, _⟩ := I.base
  intro hj
  obtain ⟨it, k', h1, h2, h3⟩ := (shows_iff I j b i).1 hj
  have := C21_unique hb hk hx hs h3
  subst this
  obtain ⟨⟨fam, q, m, f, b', hi⟩, _⟩ := I.its j it h1
  obtain ⟨q', _, e⟩ := hi.at_.mem h2
  obtain ⟨d, i', e'⟩ := shared_strong I.rel e
  rw [hk] at e'; cases e'
  exact hx d i' rfl

/-- C48: while an iterator still has to yield an item of a slice, neither `get_mut` nor `into_mut` gives
access to the slice. -/
theorem C48_blocks {ops : List (POp α)} {p : PState α} {k b i j d g : Nat} (h : pafter umax zst ops = .ok p) (hk : p.st.get k = some (.strong d g))
    (hh : k ∉ p.hidden) (hs : p.st.Sees umax k b i) (hj : p.Shows umax j b i) (n : Nat) (a : α) :
    panswer umax zst ops (.base (.getMut k n a)) = .ok (.base .none) ∧ panswer umax zst ops (.base (.intoMut k)) = .ok (.base .err) := by
  obtain ⟨w, I⟩ := PInv.of_after h
  obtain ⟨f, q, hw⟩ := strong_shared I.rel hk
  obtain ⟨it, k', h1, h2, h3⟩ := (shows_iff I j b i).1 hj
  obtain ⟨⟨fam, q0, m, f0, b', hi⟩, _⟩ := I.its j it h1
  obtain ⟨q', _, e⟩ := hi.at_.mem h2
  have hne : k' ≠ k := by rintro rfl; exact hh (mem_hidden.2 ⟨j, it, h1, h2⟩)
  obtain ⟨bops, hb, rfl⟩ := I.base
  obtain ⟨rfl, hrel⟩ := C28_overlap hb hw e hs h3
  have hO : (World.after umax zst bops).OtherStrong k f q := ⟨k', q', hne, e, hrel⟩
  have tr : ∀ op : Op α, op.on = some k → panswer umax zst ops (.base op) = (answer umax zst bops op).map .base := by
    intro op ho
    obtain ⟨s', e1, e2, _⟩ := pcall_base I (op := op) (fun k' h' => by rw [ho] at h'; cases h'; exact hh)
    rw [panswer_of h, e1]
    simp only [answer, hb, Except.bind, e2]; rfl
  rw [tr _ rfl, tr _ rfl, (C18_get_mut_iff hw n a).2.2 (.inl hO), (C20_into_mut_iff hw).2.2 hO]
  exact ⟨rfl, rfl⟩

/-- C48: after `get_mut` granted access, and as long as the handle itself is not used, no call on
handles or iterators gives another handle, or an iterator over shared parts, that shows one of
its items. -/
theorem C48_exclusive {ops more : List (POp α)} {p p' : PState α} {k n b i : Nat} {a : α} (h : pafter umax zst ops = .ok p)
    (hm : panswer umax zst ops (.base (.getMut k n a)) = .ok (.base .done)) (hu : ∀ x ∈ more, x.on ≠ some k)
    (h' : pafter umax zst (ops ++ .base (.getMut k n a) :: more) = .ok p') (hs : p.st.Sees umax k b i) :
    p'.st.Sees umax k b i ∧ (∀ k', p'.st.Sees umax k' b i → k' = k) ∧ ∀ j, ¬ p'.Shows umax j b i := by
  obtain ⟨w, I⟩ := PInv.of_after h
  have hk : k ∉ p.hidden := by
    intro hk
    rw [panswer_of h, pcall_base_invalid (op := .getMut k n a) rfl hk] at hm; cases hm
  obtain ⟨bops, hb, rfl⟩ := I.base
  obtain ⟨s1, e1, e2, S1⟩ := pcall_base I (op := .getMut k n a) (fun k' h' => by cases h'; exact hk)
  rw [panswer_of h, e1] at hm
  simp only [Except.map, Except.ok.injEq, PObs.base.injEq] at hm
  have ha : answer umax zst bops (.getMut k n a) = .ok .done := by
    simp only [answer, hb, Except.bind, e2]; simp only [Except.map, hm]
  obtain ⟨os, hp⟩ := pafter_split h h'
  rw [prun_cons e1] at hp
  obtain ⟨p2, os2, w2, e3, S⟩ := prun_ok (umax := umax) more S1.inv
  rw [e3] at hp
  simp only [Except.map, Except.ok.injEq, Prod.mk.injEq] at hp
  obtain ⟨rfl, _⟩ := hp
  have hlt : k < (World.after umax zst bops).hs.length := by
    obtain ⟨y, hy, _⟩ := I.rel.sees_iff.1 hs; exact World.get_lt hy
  have hlt' : k < ((World.after umax zst bops).call umax (.getMut k n a)).1.hs.length := Nat.lt_of_lt_of_le hlt (World.act_len umax _ _)
  have out : ∀ {P : Prop}, (k ∈ p.hidden ∨ ((World.after umax zst bops).call umax (.getMut k n a)).1.hs.length ≤ k ∨ ∃ x ∈ more, x.on = some k) → P := by
    rintro P (h | h | ⟨x, hx, h⟩)
    · exact absurd h hk
    · omega
    · exact absurd h (hu x hx)
  obtain ⟨bmore, bos, r1, r2, r3⟩ := S.runs
  have hun : Unused k bmore := fun op ho hk' => out (r3 op ho k hk')
  have hb2 : after umax zst (bops ++ .getMut k n a :: bmore) = .ok p2.st := after_run hb (run_append (run_one e2) r1)
  obtain ⟨g1, g2⟩ := C19_exclusive ha hun hb hb2 hs
  refine ⟨g1, g2, fun j hj => ?_⟩
  obtain ⟨it, k', h1, h2, h3⟩ := (shows_iff S.inv j b i).1 hj
  have := g2 k' h3
  subst this
  exact out (S.hid k' (mem_hidden.2 ⟨j, it, h1, h2⟩))

theorem drops_world (umax : Nat) (ks : List Nat) : ∀ w : World α, (w.run umax (ks.map .drop)).1.fams = w.fams ∧
    (∀ k, (w.run umax (ks.map .drop)).1.get k = if k ∈ ks then none else w.get k) ∧
    ∀ b i, (w.run umax (ks.map .drop)).1.items b i = w.items b i ∨
      ((∃ a, w.items b i = .live a) ∧ (w.run umax (ks.map .drop)).1.items b i = .dropped) := by
  induction ks with
  | nil => intro w; exact ⟨rfl, fun k => by simp; rfl, fun b i => .inl rfl⟩
  | cons k ks ih =>
    intro w
    obtain ⟨h1, h2, h3⟩ := ih (w.call umax (.drop k)).1
    have e : (w.run umax ((k :: ks).map .drop)).1 = ((w.call umax (.drop k)).1.run umax (ks.map .drop)).1 := rfl
    have f1 : (w.call umax (.drop k)).1.fams = w.fams := by
      simp only [World.call, World.act]; cases w.get k <;> rfl
    have f2 : ∀ k', (w.call umax (.drop k)).1.get k' = if k' = k then none else w.get k' := by
      intro k'
      simp only [World.call, World.act]
      cases hk : w.get k with
      | none =>
        show w.get k' = _
        split
        · rename_i ek; rw [ek, hk]
        · rfl
      | some y =>
        show (w.del k).get k' = _
        split
        · rename_i ek; rw [ek, World.get_del_self]
        · rename_i ek; rw [World.get_del_ne ek]
    have f3 : ∀ b i, (w.call umax (.drop k)).1.items b i = w.items b i ∨
        ((∃ a, w.items b i = .live a) ∧ (w.call umax (.drop k)).1.items b i = .dropped) := by
      intro b i
      have key : ∀ v : World α, v.items = w.items → v.settle.items b i = w.items b i ∨ ((∃ a, w.items b i = .live a) ∧ v.settle.items b i = .dropped) := by
        intro v hv
        simp only [World.settle, hv]
        cases w.items b i with
        | live a =>
          simp only
          split
          · exact .inl rfl
          · exact .inr ⟨⟨a, rfl⟩, rfl⟩
        | _ => exact .inl rfl
      apply key
      simp only [World.act]; cases w.get k <;> rfl
    rw [e]
    refine ⟨h1.trans f1, fun k' => ?_, fun b i => ?_⟩
    · rw [h2, f2]
      by_cases h : k' ∈ ks <;> by_cases h' : k' = k <;> simp [h, h']
    · rcases f3 b i with g | ⟨⟨a, ga⟩, g⟩
      · rcases h3 b i with g' | ⟨⟨a, ga'⟩, g'⟩
        · exact .inl (g'.trans g)
        · exact .inr ⟨⟨a, by rw [← g]; exact ga'⟩, g'⟩
      · refine .inr ⟨⟨a, ga⟩, ?_⟩
        rcases h3 b i with g' | ⟨_, g'⟩
        · exact g'.trans g
        · exact g'

/-- C48: dropping an iterator drops exactly those items of the parts it has not yielded that neither a
handle of the user nor another iterator shows; every other item stays as it is, and so do the
other iterators. -/
theorem C48_drop {ops : List (POp α)} {p p' : PState α} {j : Nat} (h : pafter umax zst ops = .ok p) (h' : pafter umax zst (ops ++ [.dropParts j]) = .ok p')
    (b i : Nat) :
    p'.iter j = none ∧ (∀ j', j' ≠ j → (p'.Shows umax j' b i ↔ p.Shows umax j' b i)) ∧
    ((∀ a, p.st.h.slot b i ≠ .live a) → p'.st.h.slot b i = p.st.h.slot b i) ∧
    (((∃ k, k ∉ p.hidden ∧ p.st.Sees umax k b i) ∨ ∃ j', j' ≠ j ∧ p.Shows umax j' b i) → p'.st.h.slot b i = p.st.h.slot b i) ∧
    (p.Shows umax j b i → ¬ ((∃ k, k ∉ p.hidden ∧ p.st.Sees umax k b i) ∨ ∃ j', j' ≠ j ∧ p.Shows umax j' b i) → p'.st.h.slot b i = .dropped) := by
  obtain ⟨w, I⟩ := PInv.of_after h
  obtain ⟨os, hp⟩ := pafter_split h h'
  cases hj : p.iter j with
  | none =>
    rw [prun_cons (pcall_no_iter hj .front 0).2.2.2.2] at hp
    cases hp
    refine ⟨hj, fun _ _ => Iff.rfl, fun _ => rfl, fun _ => rfl, ?_⟩
    rintro ⟨it, _, _, hj', _⟩
    rw [hj] at hj'; cases hj'
  | some it =>
    obtain ⟨s', e1, e2, S⟩ := pcall_drop I hj
    rw [prun_cons e1] at hp
    simp only [prun, Except.map, Except.ok.injEq, Prod.mk.injEq] at hp
    obtain ⟨rfl, _⟩ := hp
    obtain ⟨d1, d2, d3⟩ := drops_world umax it.deque.items w
    have I' := S.inv
    generalize hw' : (w.run umax (it.deque.items.map .drop)).1 = w' at *
    have cov : ∀ y, w'.covers b i y = w.covers b i y := by
      intro y; cases y <;> simp only [World.covers, World.fam, World.rangeOf, d1]
    have sees : ∀ k, s'.Sees umax k b i ↔ k ∉ it.deque.items ∧ p.st.Sees umax k b i := by
      intro k
      rw [I'.rel.sees_iff, I.rel.sees_iff]
      simp only [d2, cov]
      by_cases hk : k ∈ it.deque.items <;> simp [hk]
    have hit : ∀ j', j' ≠ j → (PState.mk s' (p.its.set j none)).iter j' = p.iter j' := fun j' hne => iter_set_ne hne
    have hj0 : (PState.mk s' (p.its.set j none)).iter j = none := iter_set_self hj
    have shows : ∀ j', j' ≠ j → ((PState.mk s' (p.its.set j none)).Shows umax j' b i ↔ p.Shows umax j' b i) := by
      intro j' hne
      rw [shows_iff I', shows_iff I, hit j' hne]
      constructor
      · rintro ⟨it', k, h1, h2, h3⟩; exact ⟨it', k, h1, h2, ((sees k).1 h3).2⟩
      · rintro ⟨it', k, h1, h2, h3⟩
        exact ⟨it', k, h1, h2, (sees k).2 ⟨fun hk => I.disj j j' it it' (Ne.symm hne) hj h1 k hk h2, h3⟩⟩
    have hitems : s'.h.slot b i = p.st.h.slot b i ∨ ((∃ a, p.st.h.slot b i = .live a) ∧ s'.h.slot b i = .dropped) := by
      have e3 := I'.rel.core.items
      have e4 := I.rel.core.items
      simp only at e3
      rw [← e3, ← e4]; exact d3 b i
    obtain ⟨bops, hb, _⟩ := I'.base
    have hlive := C15_alive_iff_shown hb b i
    simp only at hlive
    have hother : (∃ k, s'.Sees umax k b i) ↔ (∃ k, k ∉ p.hidden ∧ p.st.Sees umax k b i) ∨ ∃ j', j' ≠ j ∧ p.Shows umax j' b i := by
      constructor
      · rintro ⟨k, hk⟩
        obtain ⟨h1, h2⟩ := (sees k).1 hk
        by_cases hh : k ∈ p.hidden
        · obtain ⟨j', it', g1, g2⟩ := mem_hidden.1 hh
          refine .inr ⟨j', ?_, (shows_iff I j' b i).2 ⟨it', k, g1, g2, h2⟩⟩
          rintro rfl; rw [hj] at g1; cases g1; exact h1 g2
        · exact .inl ⟨k, hh, h2⟩
      · rintro (⟨k, hh, hk⟩ | ⟨j', hne, hs⟩)
        · exact ⟨k, (sees k).2 ⟨fun h1 => hh (mem_hidden.2 ⟨j, it, hj, h1⟩), hk⟩⟩
        · obtain ⟨it', k, g1, g2, g3⟩ := (shows_iff I j' b i).1 hs
          exact ⟨k, (sees k).2 ⟨fun h1 => I.disj j j' it it' (Ne.symm hne) hj g1 k h1 g2, g3⟩⟩
    refine ⟨hj0, shows, ?_, ?_, ?_⟩
    · intro hn
      rcases hitems with g | ⟨⟨a, ga⟩, _⟩
      · exact g
      · exact absurd ga (hn a)
    · intro ho
      rcases hitems with g | ⟨_, g⟩
      · exact g
      · obtain ⟨a, ha⟩ := hlive.2 (hother.2 ho)
        rw [g] at ha; cases ha
    · intro hs hn
      rcases hitems with g | ⟨_, g⟩
      · exfalso
        obtain ⟨it', k, _, _, g3⟩ := (shows_iff I j b i).1 hs
        obtain ⟨b2, hb2, _⟩ := I.base
        obtain ⟨a, ha⟩ := (C15_alive_iff_shown hb2 b i).2 ⟨k, g3⟩
        exact hn (hother.1 (hlive.1 ⟨a, by rw [g]; exact ha⟩))
      · exact g

/-- C48: once the user has dropped all handles and all iterators, no item is alive, all memory is
freed, and no allocation of a reference count is left. -/
theorem C48_released {ops : List (POp α)} {p : PState α} (h : pafter umax zst ops = .ok p) (hk : ∀ k, k ∉ p.hidden → p.st.get k = none)
    (hj : ∀ j, p.iter j = none) :
    (∀ b i a, p.st.h.slot b i ≠ .live a) ∧ (∀ b, p.st.h.sk.mem b = false) ∧ ∀ x, p.st.h.sk.node x = none := by
  obtain ⟨w, I⟩ := PInv.of_after h
  obtain ⟨bops, hb, _⟩ := I.base
  obtain ⟨h1, h2, h3, _⟩ := C16_no_leak hb fun k => hk k fun hh => by
    obtain ⟨j, it, g, _⟩ := mem_hidden.1 hh
    rw [hj] at g; cases g
  exact ⟨h1, h2, h3⟩

/-! ## Examples -/

/-- A slice of five items, and a clone of it turned into an iterator over four parts. -/
def demoParts : List (POp Nat) := [.base (.rcNew [10, 11, 12, 13, 14]), .base (.clone 0), .intoParts 1 4]

/-- Calls on the iterator, mixed with others: the first part is dropped, another slice is made, the
original is dropped, the iterator is cloned, and the clone is advanced. -/
def demoWalk : List (POp Nat) :=
  [.nextPart .front 0, .base (.drop 3), .base (.rcNew [7]), .nextPart .back 0, .base (.drop 0), .cloneParts 0 4, .nextPart .back 1, .nextPart .front 0]

example : walkOn 0 demoWalk = [.front, .back, .front] ∧ walkOn 1 demoWalk = [.back] ∧ POp.dropParts 0 ∉ demoWalk := by
  refine ⟨rfl, rfl, ?_⟩
  intro h; simp [demoWalk] at h

theorem of_toOption {β : Type} {x : Except UB β} {y : β} (h : x.toOption = some y) : x = .ok y := by
  cases x <;> simp_all [Except.toOption]

theorem of_map {β γ : Type} {x : Except UB β} {f : β → γ} {y : γ} (h : x.toOption.map f = some y) : ∃ z, x = .ok z ∧ f z = y := by
  cases x <;> simp_all [Except.toOption]

/-- The handle, if it is an `RcSlice`. -/
def strongAt (s : State α) (k : Nat) : Option (Nat × Nat) := match s.get k with
  | some (.strong d i) => some (d, i)
  | _ => none

theorem of_strongAt {s : State α} {k d i : Nat} (h : strongAt s k = some (d, i)) : s.get k = some (.strong d i) := by
  simp only [strongAt] at h
  split at h
  · rename_i e; simp only [Option.some.injEq, Prod.mk.injEq] at h; rw [e, h.1, h.2]
  · cases h

/-- The hypotheses of `C47_walk`; the walk itself runs by `C46_safe`. -/
example : ∃ p, pafter 100 false (demoParts.take 2) = .ok p ∧ p.st.get 1 = some (.strong 1 3) ∧ 1 ∉ p.hidden ∧
    handleRange 100 p.st.h (.strong 1 3) = .ok (some (0, 0, 5)) ∧ p.its.length = 0 := by
  have e : (pafter 100 false (demoParts.take 2)).toOption.map (fun p => (strongAt p.st 1, p.hidden,
      (handleRange 100 p.st.h (.strong 1 3)).toOption, p.its.length)) = some (some (1, 3), [], some (some (0, 0, 5)), 0) := by
    set_option synthInstance.maxSize 1000 in decide +kernel
  obtain ⟨p, h, e⟩ := of_map e
  simp only [Prod.mk.injEq] at e
  exact ⟨p, h, of_strongAt e.1, by rw [e.2.1]; simp, of_toOption e.2.2.1, e.2.2.2⟩

example : ((prun 100 (PState.empty false) (demoParts ++ demoWalk)).toOption.map fun q => (partsFrom 0 (demoParts ++ demoWalk) q.2, partsFrom 1 (demoParts ++ demoWalk) q.2)) =
    some ([some (0, 0, 1), some (0, 3, 2), some (0, 1, 1)], [some (0, 2, 1)]) := by decide +kernel

/-- While the iterator has parts left, it blocks access to the original, and gives it back when the
parts and the iterator are gone. -/
example : (panswer 100 false demoParts (.base (.getMut 0 0 7))).toOption = some (.base .none) ∧
    (panswer 100 false demoParts (.base (.intoMut 0))).toOption = some (.base .err) ∧
    (panswer 100 false (demoParts ++ [.nextPart .front 0, .dropParts 0]) (.base (.getMut 0 0 7))).toOption = some (.base .none) ∧
    (panswer 100 false (demoParts ++ [.nextPart .front 0, .dropParts 0, .base (.drop 3)]) (.base (.getMut 0 0 7))).toOption = some (.base .done) := by
  decide +kernel

/-- Handle 1 is inside the iterator: it cannot be used. -/
example : (panswer 100 false demoParts (.base (.read 1))).toOption = some .invalid ∧
    (panswer 100 false demoParts (.intoParts 1 2)).toOption = some .invalid := by decide +kernel

/-- The hypotheses of `C48_blocks` and `C48_drop`: the iterator shows item 3, which the original shows too. -/
example : ∃ p, pafter 100 false demoParts = .ok p ∧ p.st.get 0 = some (.strong 1 3) ∧ 0 ∉ p.hidden ∧ p.st.Sees 100 0 0 3 ∧ p.Shows 100 0 0 3 := by
  have e : (pafter 100 false demoParts).toOption.map (fun p => (strongAt p.st 0, p.hidden,
      (handleRange 100 p.st.h (.strong 1 3)).toOption, (p.iter 0).map fun it => (iterRange 100 p.st it).toOption)) =
      some (some (1, 3), [1], some (some (0, 0, 5)), some (some (some (0, 0, 5)))) := by
    set_option synthInstance.maxSize 1000 in decide +kernel
  obtain ⟨p, h, e⟩ := of_map e
  simp only [Prod.mk.injEq] at e
  obtain ⟨e1, e2, e3, e4⟩ := e
  cases hi : p.iter 0 with
  | none => rw [hi] at e4; cases e4
  | some it =>
    rw [hi] at e4
    simp only [Option.map_some, Option.some.injEq] at e4
    exact ⟨p, h, of_strongAt e1, by rw [e2]; simp, ⟨_, 0, 5, of_strongAt e1, of_toOption e3, by omega, by omega⟩,
      ⟨it, 0, 5, hi, of_toOption e4, by omega, by omega⟩⟩

/-- A number of parts that is not a power of two: the slice is gone afterwards. -/
example : (panswer 100 false (demoParts.take 2) (.intoParts 1 3)).toOption = some .panicked ∧
    (panswer 100 false (demoParts.take 2 ++ [.intoParts 1 3]) (.base (.read 1))).toOption = some (.base .invalid) ∧
    (panswer 100 false (demoParts.take 2 ++ [.intoParts 1 3]) (.base (.getMut 0 0 7))).toOption = some (.base .done) := by decide +kernel

end Verif
