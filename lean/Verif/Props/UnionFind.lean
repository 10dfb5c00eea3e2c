import Verif.Lemmas.UnionFind

/-!
# C41, C42: the disjoint set structures
-/

namespace Rosemary.Props

open Rosemary.UnionFind

variable {α : Type} [DecidableEq α]

/-! ## C41: UnionFind -/

/-- The documented ways to use a `UnionFind` object: look up an element, `find(x); find(y);
union(x, y)` (as `kruskal` does), or unite two sets by their names, `union(find(x), find(y))` (as
`cheriton_tarjan` does). -/
inductive Call (α : Type)
  | find (x : α)
  | link (x y : α)
  | join (x y : α)

/-- The calls made. -/
def Call.exec (s : UF α) : Call α → Option (Except PyErr (UF α))
  | .find x => s.run [.find x]
  | .link x y => s.run [.find x, .find y, .union x y]
  | .join x y =>
    match s.find x with
    | none => none
    | some (.error e) => some (.error e)
    | some (.ok (a, s)) =>
      match s.find y with
      | none => none
      | some (.error e) => some (.error e)
      | some (.ok (b, s)) => some (s.union a b)

/-- A sequence of uses. -/
def Call.execAll (s : UF α) : List (Call α) → Option (Except PyErr (UF α))
  | [] => some (.ok s)
  | c :: cs =>
    match c.exec s with
    | none => none
    | some (.error e) => some (.error e)
    | some (.ok s) => Call.execAll s cs

/-- The elements a call mentions. -/
def Call.args : Call α → List α
  | .find x => [x]
  | .link x y => [x, y]
  | .join x y => [x, y]

/-- `a` and `b` have been united by one of the calls. -/
def United (cs : List (Call α)) (a b : α) : Prop := Call.link a b ∈ cs ∨ Call.join a b ∈ cs

/-- The pairs united by the calls, the latest first, on top of `l`. -/
def unitedPairs (l : List (α × α)) : List (Call α) → List (α × α)
  | [] => l
  | .find _ :: cs => unitedPairs l cs
  | .link x y :: cs => unitedPairs ((x, y) :: l) cs
  | .join x y :: cs => unitedPairs ((x, y) :: l) cs

omit [DecidableEq α] in
theorem mem_unitedPairs (cs : List (Call α)) (l : List (α × α)) (a b : α) :
    (a, b) ∈ unitedPairs l cs ↔ (a, b) ∈ l ∨ United cs a b := by
  induction cs generalizing l with
  | nil => simp [unitedPairs, United]
  | cons c cs ih =>
    cases c with
    | find x => simp [unitedPairs, ih, United]
    | link x y => simp [unitedPairs, ih, United]; tauto
    | join x y => simp [unitedPairs, ih, United]; tauto

private theorem inv_replace {E : List α} {s : UF α} {l : List (α × α)} {x y a b : α}
    (h : Inv E s ((a, b) :: l)) (hxa : Linked l x a) (hyb : Linked l y b) :
    Inv E s ((x, y) :: l) := by
  refine ⟨h.dom, fun z hz w hw r t h1 h2 => ?_, h.rank⟩
  rw [h.rel z hz w hw r t h1 h2, linked_cons, linked_cons]
  have t1 : ∀ {p q u : α}, Linked l p q → Linked l q u → Linked l p u :=
    fun h1 h2 => .trans _ _ _ h1 h2
  have sy : ∀ {p q : α}, Linked l p q → Linked l q p := fun h => .symm _ _ h
  constructor
  · rintro (h | ⟨h1, h2⟩ | ⟨h1, h2⟩)
    · exact .inl h
    · exact .inr (.inl ⟨t1 h1 (sy hxa), t1 hyb h2⟩)
    · exact .inr (.inr ⟨t1 h1 (sy hyb), t1 hxa h2⟩)
  · rintro (h | ⟨h1, h2⟩ | ⟨h1, h2⟩)
    · exact .inl h
    · exact .inr (.inl ⟨t1 h1 hxa, t1 (sy hyb) h2⟩)
    · exact .inr (.inr ⟨t1 h1 hyb, t1 (sy hxa) h2⟩)

private theorem exec_inv {E : List α} {s : UF α} {l : List (α × α)} (h : Inv E s l) (c : Call α)
    (hc : ∀ x ∈ c.args, x ∈ E) :
    ∃ s', c.exec s = some (.ok s') ∧ Inv E s' (unitedPairs l [c]) := by
  cases c with
  | find x =>
    obtain ⟨r, s', h1, -, -, h2, -⟩ := h.find (hc x (by simp [Call.args]))
    refine ⟨s', ?_, h2⟩
    simp only [Call.exec, UF.run, UF.step, h1]
  | link x y =>
    have hx := hc x (by simp [Call.args])
    have hy := hc y (by simp [Call.args])
    obtain ⟨r, s1, h1, hrE, hL1, i1, e1, p1, k1⟩ := h.find hx
    obtain ⟨t, s2, h2, htE, hL2, i2, e2, p2, k2⟩ := i1.find hy
    have hL1' : Leads s1.parent x r := (e1 x r).2 hL1
    have hxr : s2.parent x = some r := k2 x r hL1' p1
    have hrr : s2.parent r = some r := ((e2 x r).2 hL1').isRoot
    have htt : s2.parent t = some t := ((e2 y t).2 hL2).isRoot
    obtain ⟨s3, h3, i3⟩ := i2.union hx hy hxr hrr p2 htt
    refine ⟨s3, ?_, i3⟩
    simp only [Call.exec, UF.run, UF.step, h1, h2, h3]
  | join x y =>
    have hx := hc x (by simp [Call.args])
    have hy := hc y (by simp [Call.args])
    obtain ⟨r, s1, h1, hrE, hL1, i1, e1, p1, k1⟩ := h.find hx
    obtain ⟨t, s2, h2, htE, hL2, i2, e2, p2, k2⟩ := i1.find hy
    have hL1' : Leads s2.parent x r := (e2 x r).2 ((e1 x r).2 hL1)
    have hL2' : Leads s2.parent y t := (e2 y t).2 hL2
    have hrr : s2.parent r = some r := hL1'.isRoot
    have htt : s2.parent t = some t := hL2'.isRoot
    obtain ⟨s3, h3, i3⟩ := i2.union hrE htE hrr hrr htt htt
    refine ⟨s3, ?_, ?_⟩
    · simp only [Call.exec, h1, h2, h3]
    · refine inv_replace i3 ?_ ?_
      · exact (i2.rel x hx r hrE r r hL1' (.root hrr)).1 rfl
      · exact (i2.rel y hy t htE t t hL2' (.root htt)).1 rfl

private theorem execAll_inv {E : List α} (cs : List (Call α)) {s : UF α} {l : List (α × α)}
    (h : Inv E s l) (hc : ∀ c ∈ cs, ∀ x ∈ c.args, x ∈ E) :
    ∃ s', Call.execAll s cs = some (.ok s') ∧ Inv E s' (unitedPairs l cs) := by
  induction cs generalizing s l with
  | nil => exact ⟨s, rfl, h⟩
  | cons c cs ih =>
    obtain ⟨s1, h1, i1⟩ := exec_inv h c (hc c (by simp))
    obtain ⟨s2, h2, i2⟩ := ih i1 (fun c hc' => hc c (by simp [hc']))
    refine ⟨s2, ?_, ?_⟩
    · unfold Call.execAll; rw [h1]; exact h2
    · cases c <;> exact i2

/-- C41: after any sequence of documented uses, every `find` ends without an exception, returns an
element of the set, is idempotent, and two elements have the same name exactly when they are connected
by the unions made. -/
theorem C41_unionfind_partial (E : List α) (cs : List (Call α))
    (hc : ∀ c ∈ cs, ∀ x ∈ c.args, x ∈ E) :
    ∃ s, Call.execAll (UF.init E) cs = some (.ok s) ∧
      ∀ x ∈ E, ∀ y ∈ E, ∃ a b s1 s2 s3, s.find x = some (.ok (a, s1)) ∧
        s1.find y = some (.ok (b, s2)) ∧ a ∈ E ∧ s2.find a = some (.ok (a, s3)) ∧
        Relation.EqvGen (United cs) x a ∧
        (a = b ↔ Relation.EqvGen (United cs) x y) := by
  obtain ⟨s, h1, i⟩ := execAll_inv cs (Inv.init E) hc
  refine ⟨s, h1, ?_⟩
  intro x hx y hy
  have hrel : ∀ u v, Linked (unitedPairs [] cs) u v ↔ Relation.EqvGen (United cs) u v := by
    intro u v
    have : (fun a b => (a, b) ∈ unitedPairs [] cs) = United cs := by
      funext a b
      rw [mem_unitedPairs]
      simp
    unfold Linked
    rw [this]
  obtain ⟨a, s1, f1, haE, hL1, i1, e1, -, -⟩ := i.find hx
  obtain ⟨b, s2, f2, hbE, hL2, i2, e2, -, -⟩ := i1.find hy
  obtain ⟨a', s3, f3, -, hL3, -⟩ := i2.find haE
  have hL1' : Leads s2.parent x a := (e2 x a).2 ((e1 x a).2 hL1)
  have haa : a' = a := hL3.unique (.root hL1'.isRoot)
  subst haa
  refine ⟨a', b, s1, s2, s3, f1, f2, haE, f3, ?_, ?_⟩
  · rw [← hrel]
    exact (i2.rel x hx a' haE a' a' hL1' (.root hL1'.isRoot)).1 rfl
  · rw [← hrel]
    exact i2.rel x hx y hy a' b hL1' ((e2 y b).2 hL2)

/-- C41, error branch: an element that was not given to the constructor raises `KeyError`. -/
theorem C41_unionfind_keyError (E : List α) (x y : α) (hx : x ∉ E) :
    (UF.init E).find x = some (.error .keyError) ∧ (UF.init E).union x y = .error .keyError ∧
    (UF.init E).union y x = .error .keyError := by
  have h : (UF.init E).parent x = none := by rw [(init_apply E x).1, if_neg hx]
  refine ⟨?_, ?_, ?_⟩
  · unfold UF.find
    rw [walk.eq_def, h]
  · unfold UF.union
    rw [h]
  · unfold UF.union
    rw [h]
    split
    · rename_i h1 h2; simp at h2
    · rfl

example : (∀ c ∈ [Call.link 1 2, .join 2 3, .link 5 4], ∀ x ∈ c.args, x ∈ [1, 2, 3, 4, 5]) ∧
    Relation.EqvGen (United [Call.link 1 2, .join 2 3, .link 5 4]) 1 3 :=
  ⟨by decide, .trans _ 2 _ (.rel _ _ (.inl (by simp))) (.rel _ _ (.inr (by simp)))⟩

/-! ### Raw unions -/

/-- What a finished walk says. -/
theorem walk_some {p : α → Option α} {x : α} {path : List α} {e : Except PyErr (α × List α)}
    (h : walk p x path = some e) :
    (∀ r path', e = .ok (r, path') → Leads p x r) ∧
    (∀ er, e = .error er → ∃ z, p z = none ∧ (∀ S : α → Prop, S x →
      (∀ u, S u → ∀ v, p u = some v → S v) → S z)) := by
  have := walk.partial_correctness p
    (motive := fun x path e => (∀ r path', e = .ok (r, path') → Leads p x r) ∧
      (∀ er, e = .error er → ∃ z, p z = none ∧ (∀ S : α → Prop, S x →
        (∀ u, S u → ∀ v, p u = some v → S v) → S z))) ?_ x path e h
  · exact this
  · intro walk ih x path e h
    split at h
    · rename_i hx
      injection h with h
      subst h
      refine ⟨fun r path' h => by simp at h, fun er _ => ⟨x, hx, fun S hS _ => hS⟩⟩
    · rename_i y hy
      split at h
      · rename_i hxy
        injection h with h
        subst h
        refine ⟨fun r path' h => ?_, fun er h => by simp at h⟩
        injection h with h
        injection h with h1 h2
        subst h1
        exact .root (by rw [hy, ← hxy])
      · rename_i hxy
        obtain ⟨h1, h2⟩ := ih _ _ _ h
        refine ⟨fun r path' h => .step hy hxy (h1 r path' h), fun er h => ?_⟩
        obtain ⟨z, hz, hS⟩ := h2 er h
        exact ⟨z, hz, fun S hx hcl => hS S (hcl x hx y hy) hcl⟩

/-- C41 (violation): without the preceding `find` calls the unions `(1,2)`, `(2,3)`, `(1,4)` leave 1
and 3 in different sets. -/
theorem C41_unionfind_violation :
    ∃ s : UF Nat, (UF.init [1, 2, 3, 4]).run [.union 1 2, .union 2 3, .union 1 4] = some (.ok s) ∧
      ∃ s1 s2, s.find 1 = some (.ok (4, s1)) ∧ s1.find 3 = some (.ok (3, s2)) := by
  refine ⟨_, rfl, ?_⟩
  have h1 : Leads (put (put (put (UF.init [1, 2, 3, 4]).parent 1 2) 2 3) 2 4) 1 4 :=
    .step (y := 2) (by decide) (by decide)
      (.step (y := 4) (by decide) (by decide) (.root (by decide)))
  have h3 : Leads (put (put (put (UF.init [1, 2, 3, 4]).parent 1 2) 2 3) 2 4) 3 3 :=
    .root (by decide)
  obtain ⟨s1, f1, e1⟩ := find_of_leads (s := ⟨_, _⟩) h1
  obtain ⟨s2, f2, -⟩ := find_of_leads ((e1 3 3).2 h3)
  exact ⟨s1, s2, f1, f2⟩

/-- C41 (violation): without the preceding `find` calls, the unions `(1,2)`, `(2,3)`, `(3,1)` create a
cycle of pointers, and `find(3)` never returns. -/
theorem C41_unionfind_cycle_violation :
    ∃ s : UF Nat, (UF.init [1, 2, 3]).run [.union 1 2, .union 2 3, .union 3 1] = some (.ok s) ∧
      s.find 3 = none := by
  refine ⟨_, rfl, ?_⟩
  have h2 : (put (put (put (UF.init [1, 2, 3]).parent 1 2) 2 3) 3 2) 2 = some 3 := by decide
  have h3 : (put (put (put (UF.init [1, 2, 3]).parent 1 2) 2 3) 3 2) 3 = some 2 := by decide
  have hno : ∀ x r, Leads (put (put (put (UF.init [1, 2, 3]).parent 1 2) 2 3) 3 2) x r →
      x = 2 ∨ x = 3 → False := by
    intro x r h
    induction h with
    | @root r h =>
      rintro (rfl | rfl)
      · rw [h2] at h; simp at h
      · rw [h3] at h; simp at h
    | @step x y r h _ _ ih =>
      rintro (rfl | rfl)
      · rw [h2] at h; injection h with h; exact ih (.inr h.symm)
      · rw [h3] at h; injection h with h; exact ih (.inl h.symm)
  have hw : walk (put (put (put (UF.init [1, 2, 3]).parent 1 2) 2 3) 3 2) 3 [] = none := by
    match hc : walk (put (put (put (UF.init [1, 2, 3]).parent 1 2) 2 3) 3 2) 3 [] with
    | none => rfl
    | some (.ok (r, path)) =>
      exact absurd ((walk_some hc).1 r path rfl) (fun h => hno 3 r h (.inr rfl))
    | some (.error e) =>
      obtain ⟨z, hz, hS⟩ := (walk_some hc).2 e rfl
      have := hS (fun z => z = 2 ∨ z = 3) (.inr rfl) (by
        intro u hu v hv
        rcases hu with rfl | rfl
        · rw [h2] at hv; injection hv with hv; exact .inr hv.symm
        · rw [h3] at hv; injection hv with hv; exact .inl hv.symm)
      rcases this with rfl | rfl
      · rw [h2] at hz; simp at hz
      · rw [h3] at hz; simp at hz
  show UF.find ⟨_, put (put (put (UF.init [1, 2, 3]).parent 1 2) 2 3) 3 2⟩ 3 = none
  unfold UF.find
  dsimp only
  rw [hw]

/-! ## C42: NamedUnionFind -/

/-- A call on a `NamedUnionFind` object. -/
inductive NCall (α : Type)
  | find (u : α)
  | union (u v w : α)

/-- A sequence of calls. -/
def NCall.execAll (s : NUF α) : List (NCall α) → Option (Except PyErr (NUF α))
  | [] => some (.ok s)
  | .find u :: cs =>
    match s.find u with
    | none => none
    | some (.error e) => some (.error e)
    | some (.ok (_, s)) => NCall.execAll s cs
  | .union u v w :: cs =>
    match s.union u v w with
    | .error e => some (.error e)
    | .ok s => NCall.execAll s cs

/-- What the calls should do to the name of the set of each element: uniting the sets named `u` and
`v` under the name `w`. -/
def renamed (f : α → α) : List (NCall α) → α → α
  | [] => f
  | .find _ :: cs => renamed f cs
  | .union u v w :: cs => renamed (fun x => if f x = u ∨ f x = v then w else f x) cs

/-- Proper use: elements are known, `u` and `v` are the names of two different sets, and `w` is not
the name of a third one. -/
def Proper (E : List α) (f : α → α) : List (NCall α) → Prop
  | [] => True
  | .find u :: cs => u ∈ E ∧ Proper E f cs
  | .union u v w :: cs => u ≠ v ∧ (∃ a ∈ E, f a = u) ∧ (∃ b ∈ E, f b = v) ∧
      (w = u ∨ w = v ∨ ∀ a ∈ E, f a ≠ w) ∧
      Proper E (fun x => if f x = u ∨ f x = v then w else f x) cs

private theorem nexec_inv {E : List α} (cs : List (NCall α)) {s : NUF α} {f : α → α}
    (h : NInv E s f) (hp : Proper E f cs) :
    ∃ s', NCall.execAll s cs = some (.ok s') ∧ NInv E s' (renamed f cs) := by
  induction cs generalizing s f with
  | nil => exact ⟨s, rfl, h⟩
  | cons c cs ih =>
    cases c with
    | find u =>
      obtain ⟨s1, h1, i1⟩ := nfind_inv h hp.1
      obtain ⟨s2, h2, i2⟩ := ih i1 hp.2
      exact ⟨s2, by unfold NCall.execAll; rw [h1]; exact h2, i2⟩
    | union u v w =>
      obtain ⟨p1, p2, p3, p4, p5⟩ := hp
      obtain ⟨s1, h1, i1⟩ := nunion_inv h p1 p2 p3 p4
      obtain ⟨s2, h2, i2⟩ := ih i1 p5
      exact ⟨s2, by unfold NCall.execAll; rw [h1]; exact h2, i2⟩

/-- C42: after any proper sequence of calls, `find(x)` ends and returns the name most recently given
to the set that contains `x`.  Partial: proper use requires different sets, see the violation below. -/
theorem C42_named_unionfind_partial (E : List α) (cs : List (NCall α)) (hp : Proper E id cs) :
    ∃ s, NCall.execAll (NUF.init E) cs = some (.ok s) ∧
      ∀ x ∈ E, ∃ s', s.find x = some (.ok (renamed id cs x, s')) := by
  obtain ⟨s, h1, i⟩ := nexec_inv cs (NInv.init E) hp
  exact ⟨s, h1, fun x hx => by
    obtain ⟨s', h2, -⟩ := nfind_inv i hx
    exact ⟨s', h2⟩⟩

/-- C42, error branch. -/
theorem C42_named_unionfind_keyError (E : List α) (x y w : α) (hx : x ∉ E) :
    (NUF.init E).find x = some (.error .keyError) ∧
    (NUF.init E).union x y w = .error .keyError ∧ (NUF.init E).union y x w = .error .keyError := by
  have h := ninit_apply E x
  simp only [if_neg hx] at h
  refine ⟨?_, ?_, ?_⟩
  · unfold NUF.find
    rw [nwalk.eq_def, h.1]
  · unfold NUF.union
    rw [h.2.2.1]
  · unfold NUF.union
    rw [h.2.2.1]
    split
    · rename_i h1 h2; simp at h2
    · rfl

example : Proper [1, 2, 3, 4] id [.union 1 2 7, .find 3, .union 7 3 2] ∧
    renamed id [NCall.union 1 2 7, .find 3, .union 7 3 2] 1 = 2 ∧
    renamed id [NCall.union 1 2 7, .find 3, .union 7 3 2] 4 = 4 := by
  refine ⟨⟨by decide, ⟨1, by decide, rfl⟩, ⟨2, by decide, rfl⟩, ?_, by decide,
    by decide, ⟨1, by decide, by decide⟩, ⟨3, by decide, by decide⟩, ?_, trivial⟩, by decide, by decide⟩
  · right; right; decide
  · right; right; decide

/-- C42 (violation): uniting a set with itself makes its root point to itself, and `find` never
returns. -/
theorem C42_named_unionfind_violation :
    ∃ s : NUF Nat, (NUF.init [1, 2]).union 1 1 1 = .ok s ∧ s.find 1 = none := by
  refine ⟨_, rfl, ?_⟩
  have hf : (put (NUF.init [1, 2]).father 1 (some 1)) 1 = some (some 1) := by decide
  have hw : ∀ path, nwalk (put (NUF.init [1, 2]).father 1 (some 1)) 1 path = none := by
    intro path
    match hc : nwalk (put (NUF.init [1, 2]).father 1 (some 1)) 1 path with
    | none => rfl
    | some e =>
      exfalso
      have := nwalk.partial_correctness (put (NUF.init [1, 2]).father 1 (some 1))
        (motive := fun x path e => x = 1 → False) ?_ 1 path e hc rfl
      · exact this
      · intro nwalk ih x path e h hx
        subst hx
        rw [hf] at h
        exact ih _ _ _ h rfl
  show NUF.find ⟨_, _, put (NUF.init [1, 2]).father 1 (some 1), _⟩ 1 = none
  unfold NUF.find
  dsimp only
  rw [hw]

end Rosemary.Props
