import Verif.Arc.Proofs.Pub3
/-!
# Knowing what has been done to a guard

As in `Race4.lean`, for guards: whoever drops the last `Arc<DataGuard>` knows what has been done
through the others.
-/

namespace Verif.Arc
open Verif.Spec (Side Slot Family Rng End)
open Verif.Rc
variable {α : Type}

/-- Whoever drops the last reference to guard `g` will know that access `e` has happened. -/
inductive KnG (v : VConf α) (e : Nat) : Nat → Prop
  | cnt {g : Nat} (h : e ∈ v.m (.gcnt g)) : KnG v e g
  | ent {g k : Nat} {en : Ent} (hk : v.c.get k = some en) (hx : g ∈ aGd (entT en)) (h : e ∈ v.hb k ∨ e ∈ v.ha k) : KnG v e g
  | call {g i : Nat} {cl : Call α} (hi : v.c.calls[i]? = some cl) (hx : g ∈ aGd (callT cl)) (h : e ∈ v.cv i) : KnG v e g
  | link {g h : Nat} {w : GuardV} (hw : v.c.a.guard h = some w) (hp : w.parent = some g) (h : KnG v e h) : KnG v e g

section
variable {o : Ords} {v v' : VConf α} {i e : Nat} {cl cl' : Call α} {push : List Ent} {U R N : List AT} {V : View}

namespace VStp
variable (S : VStp o v v' i cl cl' push U R N V)
include S

theorem holdG {x : Nat} (hx : x ∈ aGd (N ++ entsT push)) (h : e ∈ V ∨ e = v.log.length + 1) : KnG v' e x := by
  rw [aGd_append, List.mem_append] at hx
  rcases hx with hx | hx
  · refine .call S.self ?_ (S.cv_V h)
    show x ∈ aGd (callT cl')
    rw [(aGd_perm S.cT').mem_iff, aGd_append]
    exact List.mem_append_left _ hx
  · obtain ⟨t, ht, hx⟩ := List.mem_flatMap.1 hx
    obtain ⟨en, he, ht⟩ := List.mem_flatMap.1 ht
    obtain ⟨k, hk, hg⟩ := push_get (c := v.c) (a := v'.c.a) (cl' := cl') (i := i) he
    rw [← S.hc] at hg
    exact .ent hg (mem_aGd ht hx) (.inl (S.hb_V hk h))

variable (G : GMv v.c.a v'.c.a (callAcc o v.c.a cl) U (N ++ entsT push))
include G

/-- A guard is passed on, or dropped. -/
theorem passG {g : Nat} (hg : g ∈ aGd U) (h : e ∈ v.log.length :: v.cv i) : KnG v' e g := by
  have hV : e ∈ V := by rw [S.view]; exact Acc.runs_view h
  rcases G.keep g hg with h1 | ⟨x, w, h1, h2, h3⟩ | ⟨r, h1, h2⟩
  · exact S.holdG h1 (.inl hV)
  · exact .link h2 h3 (S.holdG h1 (.inl hV))
  · exact .cnt (by rw [S.rel]; exact Acc.runs_put (callAcc_store (by trivial)) h1 h2 h)

/-- Whoever drops the last reference knows. -/
theorem collectG (B : v.c.BI) {g : Nat} {w : GuardV} (hw : v.c.a.guard g = some w) (hk : v'.c.a.guard g = none) (h : KnG v e g) : e ∈ V := by
  obtain ⟨h1, h2, ⟨r, h3, h4⟩, _⟩ := G.kill g w hw hk
  have L := Arc.GI.strong B.gi g
  rw [h2, (aGd_perm S.p).count_eq, aGd_append, aGd_append, List.count_append, List.count_append] at L
  have hU := List.count_pos_iff.2 h1
  cases h with
  | cnt h => rw [S.view]; exact Acc.runs_acq (callAcc_store (by trivial)) h3 h4 h
  | ent hk hx h =>
    exfalso
    have : g ∈ aGd (v.c.rest i) := by
      obtain ⟨t, ht, hx⟩ := List.mem_flatMap.1 hx
      exact mem_aGd (Conf.get_tok hk i ht) hx
    have := List.count_pos_iff.2 this
    omega
  | @call _ j clj hj hx h =>
    by_cases hij : j = i
    · subst hij; exact S.in_V h
    · exfalso
      have : g ∈ aGd (v.c.rest i) := by
        obtain ⟨t, ht, hx⟩ := List.mem_flatMap.1 hx
        exact mem_aGd (Conf.rest_call hj hij ht) hx
      have := List.count_pos_iff.2 this
      omega
  | link hh hp h =>
    exfalso
    have := prefs_pos (Arc.GI.lt B.gi hh) hh hp
    omega

/-- What is known stays known. -/
theorem monoG (B : v.c.BI) {g : Nat} (h : KnG v e g) : KnG v' e g := by
  induction h with
  | cnt h => exact .cnt (by rw [S.rel]; exact Acc.runs_rel (callAcc_store (by trivial)) h)
  | ent hk hx h =>
    refine .ent (S.get_old hk) hx ?_
    rw [S.hb_old hk]
    exact h.imp id S.ha_old
  | @call x j clj hj hx h =>
    by_cases hij : j = i
    · subst hij
      rw [S.hi] at hj; cases hj
      rw [(aGd_perm S.cT).mem_iff, aGd_append, List.mem_append] at hx
      rcases hx with hx | hx
      · exact S.passG G hx (List.mem_cons_of_mem _ h)
      · refine .call S.self ?_ (S.in_cv h)
        show x ∈ aGd (callT cl')
        rw [(aGd_perm S.cT').mem_iff, aGd_append]
        exact List.mem_append_right _ hx
    · exact .call ((S.other hij).trans hj) hx (S.in_cv h)
  | @link x y w hw hp h ih =>
    cases hn : v'.c.a.guard y with
    | none => exact S.holdG ((G.kill y w hw hn).2.2.2 x hp) (.inl (S.collectG G B hw hn h))
    | some w' => exact .link hn ((G.par y w w' hw hn).trans hp) ih

end VStp

theorem VSta.knG {w : Bool} (S : VSta w v v') {x : Nat} (h : KnG v e x) : KnG v' e x := by
  induction h with
  | cnt h => exact .cnt (by rw [S.m]; exact h)
  | @ent x k en hk hx h =>
    rcases S.ent k en hk with ⟨en', h1, h2⟩ | ⟨i, cl, h1, h2, h3⟩
    · refine .ent h1 (by rw [h2]; exact hx) ?_
      rw [S.hb k (Conf.get_lt hk), S.ha]; exact h
    · obtain ⟨t, ht, hx⟩ := List.mem_flatMap.1 hx
      exact .call h1 (mem_aGd (h2 t ht) hx) (h3 e h)
  | call hi hx h =>
    obtain ⟨h1, h2⟩ := S.call _ _ hi
    exact .call h1 hx (by rw [h2]; exact h)
  | link hw hp h ih => exact .link (by rw [S.a]; exact hw) hp ih

theorem VGrow.knG (S : VGrow v v') (hG : v'.c.a.guard = v.c.a.guard) {x : Nat} (h : KnG v e x) : KnG v' e x := by
  induction h with
  | cnt h => exact .cnt (by rw [S.m]; exact h)
  | ent hk hx h => exact .ent ((S.get _).trans hk) hx (h.imp (S.hb _ _) (S.ha _ _))
  | call hi hx h => exact .call (by rw [S.calls]; exact hi) hx (by rw [S.cv]; exact h)
  | link hw hp h ih => exact .link (by rw [hG]; exact hw) hp ih

end
end Verif.Arc
