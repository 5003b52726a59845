import Verif.Lemmas.SharedShown
import Verif.Props.Looking
/-!
# Objects that share parts (C67)
-/
namespace Verif.Props
open Verif Spec Shared

/-- A program may use an object as a part of many others, or several times in one, encode any of its objects, turn any of
them into dictionaries, read components of any of them and assign any of them: each `encode` gives what it gives for the
object written out at that time, in which no part is shared, and as if nothing had been encoded or looked at before.

What is missing: sending types that are not `quiet` (`Findings.C67_shared_sent`, `Findings.C67_other_sent`,
`Findings.C67_looked_sent`), and components of a constructed type with a DEFAULT (`light` in `WellTyped`), which `encode`
cannot send. -/
theorem C67_shared_partial {h : Store} (w : WellTyped h) {l : List Deed} (al : ∀ d ∈ l, Allowed h d)
    (se : ∀ d ∈ l, Sends h quiet d) : performed l h = envisaged l h :=
  performed_same l h h w w (grown_refl h) al se

/-- The same for the dictionaries.

What is missing: showing types that are not `clear` (`Findings.C67_shared_shown`), and the same components with a DEFAULT. -/
theorem C67_dict_partial {h : Store} (w : WellTyped h) {l : List Deed} (al : ∀ d ∈ l, Allowed h d)
    (sh : ∀ d ∈ l, Displays h clear d) : displayed l h = pictured l h :=
  displayed_same l h h w w (grown_refl h) al sh

/-- Which parts are shared makes no difference: objects that look the same written out, in whatever programs, are encoded
alike. -/
theorem C67_apart_partial {h h' : Store} {t : Ty} {x x' : Nat} (w : WellTyped h) (w' : WellTyped h') (i : IsA h t x)
    (i' : IsA h' t x') (q : quiet t = true) (e : treeOf t h x = treeOf t h' x') : (encodeAt x h).1 = (encodeAt x' h').1 := by
  rw [(sim_encode w i q).1, (sim_encode w' i' q).1, e]

/-- In particular an object that holds a value is encoded as the value is. -/
theorem C67_value_partial {h : Store} {t : Ty} {x : Nat} {v : Val} (w : WellTyped h) (i : IsA h t x) (q : quiet t = true)
    (s : steady t v = true) (e : treeOf t h x = ofVal t v) : (encodeAt x h).1 = encode t v := by
  rw [(sim_encode w i q).1, e]
  exact (shows_encode s (shows_fresh t v)).1

/-- The same for the dictionaries. -/
theorem C67_alike_partial {h h' : Store} {t : Ty} {x x' : Nat} (w : WellTyped h) (w' : WellTyped h') (i : IsA h t x)
    (i' : IsA h' t x') (q : clear t = true) (e : treeOf t h x = treeOf t h' x') : (toDictAt x h).1 = (toDictAt x' h').1 := by
  rw [(sim_toDict w i q).1, (sim_toDict w' i' q).1, e]

/-- What `encode`, `to_dict` and reading do to all objects, whatever their types: they keep their class and everything that
was set in them. -/
theorem C67_kept {h : Store} {d : Deed} (w : WellTyped h) (al : Allowed h d) (rd : d.reads = true) (y : Nat) (c : Cell)
    (e : h[y]? = some c) : ∃ b, (d.done h)[y]? = some ⟨c.ty, b⟩ ∧
      (b = c.body ∨ ∃ s s', c.body = .seq s ∧ b = .seq s' ∧ ∀ j z, place (s.getD []) j = some z → place (s'.getD []) j = some z) := by
  have gr : Grown h (d.done h) := by
    have k := (done_grown w w (grown_refl h) d al).1
    cases d <;> first | exact k | cases rd
  obtain ⟨b, eb, m⟩ := gr.cell y c e
  refine ⟨b, eb, ?_⟩
  rcases m with m | ⟨ex, r, a, g, s, s', q1, q2, q3, q4⟩
  · exact .inl m.symm
  · refine .inr ⟨s, s', q2, q3, fun j z hz => ?_⟩
    have fo := (w y c e).2
    rw [q1, q2] at fo
    simp only [Formed] at fo
    rw [← place_getD (r.length + a.length + g.size)] at hz ⊢
    obtain ⟨k, u, pa, _⟩ := fo.2 j z hz
    rcases q4 j k u pa with p | ⟨p, _⟩
    · rw [← p]; exact hz
    · rw [hz] at p; cases p

/-- `SEQUENCE { a SEQUENCE { y BOOLEAN, z BOOLEAN OPTIONAL }, b SEQUENCE { y BOOLEAN, z BOOLEAN OPTIONAL } OPTIONAL,
l SEQUENCE (SIZE(0..MAX)) OF SEQUENCE { y BOOLEAN, z BOOLEAN OPTIONAL } }` -/
def sharedType : Ty :=
  .sequence false (.cons "a" .mandatory lookInner (.cons "b" .optional lookInner
    (.cons "l" .mandatory (.seqOf ⟨false, some 0, none⟩ lookInner) .nil))) .nil .nil

/-- One object of the inner type is used as `a`, `b` and twice in the list; another one with nothing set is there, and an outer
one with nothing set. -/
def sharedStore : Store :=
  [⟨.boolean, .leaf (some (.bool true))⟩, ⟨lookInner, .seq (some [some 0, none])⟩,
    ⟨.seqOf ⟨false, some 0, none⟩ lookInner, .list (some [1, 1])⟩, ⟨sharedType, .seq (some [some 1, some 1, some 2])⟩,
    ⟨sharedType, .seq none⟩, ⟨lookInner, .seq none⟩]

/-- Encodes the full one and the empty one, gives the latter the same inner object, reads the unset `l` of it and `z` in the second
element of the list of the former, makes `b` of the former the empty inner object, turns both into dictionaries, and appends
to the shared list. -/
def sharedDeeds : List Deed :=
  [.encode 3, .dict 4, .encode 4, .set 4 0 1, .look 4 [2], .look 3 [2, 1, 1], .encode 4, .set 3 1 5, .encode 3, .dict 3, .set 4 2 2,
    .append 2 1, .encode 4, .encode 3, .set 1 1 0, .dict 3, .encode 4, .dict 4]

theorem sharedStore_typed : WellTyped sharedStore := by
  intro x c e
  match x, e with
  | 0, e => cases e; exact ⟨rfl, rfl⟩
  | 1, e =>
    cases e
    refine ⟨rfl, rfl, fun i y hy => ?_⟩
    match i, hy with
    | 0, hy => cases hy; exact ⟨.mandatory, .boolean, rfl, rfl⟩
    | 1, hy => cases hy
    | _ + 2, hy => cases hy
  | 2, e =>
    cases e
    refine ⟨rfl, fun y hy => ?_⟩
    simp only [Option.getD_some, List.mem_cons, List.not_mem_nil, or_false, or_self] at hy
    subst hy
    rfl
  | 3, e =>
    cases e
    refine ⟨rfl, rfl, fun i y hy => ?_⟩
    match i, hy with
    | 0, hy => cases hy; exact ⟨.mandatory, lookInner, rfl, rfl⟩
    | 1, hy => cases hy; exact ⟨.optional, lookInner, rfl, rfl⟩
    | 2, hy => cases hy; exact ⟨.mandatory, .seqOf ⟨false, some 0, none⟩ lookInner, rfl, rfl⟩
  | 4, e =>
    cases e
    refine ⟨rfl, rfl, fun i y hy => ?_⟩
    rw [show places _ none = List.replicate _ none from rfl, place_none] at hy
    cases hy
  | 5, e =>
    cases e
    refine ⟨rfl, rfl, fun i y hy => ?_⟩
    rw [show places _ none = List.replicate _ none from rfl, place_none] at hy
    cases hy

theorem sharedDeeds_allowed : ∀ d ∈ sharedDeeds, Allowed sharedStore d := by
  simp only [sharedDeeds, List.mem_cons, List.not_mem_nil, or_false]
  rintro d (rfl | rfl | rfl | rfl | rfl | rfl | rfl | rfl | rfl | rfl | rfl | rfl | rfl | rfl | rfl | rfl | rfl | rfl) <;>
    first
    | exact ⟨sharedType, rfl⟩
    | exact ⟨_, _, _, _, _, _, rfl, rfl, rfl⟩
    | exact ⟨_, _, rfl, rfl⟩

example : WellTyped sharedStore ∧ (∀ d ∈ sharedDeeds, Allowed sharedStore d) ∧ (∀ d ∈ sharedDeeds, Sends sharedStore quiet d) ∧
    ∀ d ∈ sharedDeeds, Displays sharedStore clear d := by
  refine ⟨sharedStore_typed, sharedDeeds_allowed, ?_, ?_⟩
  · simp only [sharedDeeds, List.mem_cons, List.not_mem_nil, or_false]
    rintro d (rfl | rfl | rfl | rfl | rfl | rfl | rfl | rfl | rfl | rfl | rfl | rfl | rfl | rfl | rfl | rfl | rfl | rfl) x t e i <;>
      first | (cases e; cases i; rfl) | cases e
  · simp only [sharedDeeds, List.mem_cons, List.not_mem_nil, or_false]
    rintro d (rfl | rfl | rfl | rfl | rfl | rfl | rfl | rfl | rfl | rfl | rfl | rfl | rfl | rfl | rfl | rfl | rfl | rfl) x t e i <;>
      first | (cases e; cases i; rfl) | cases e

example : performed sharedDeeds sharedStore =
    [.ok [0xA8, 0x02, 0x50], .error .noValue, .ok [0x20, 0x00], .ok [0x20, 0x02, 0x50], .ok [0x20, 0x03, 0x54],
      .ok [0x20, 0x03, 0x54], .ok [0x70, 0x03, 0xFF, 0x80]] := by decide +kernel

example : displayed sharedDeeds sharedStore =
    [.ok (some (.dict [])),
      .ok (some (.dict [("a", .dict [("y", .bool true)]), ("l", .list [.dict [("y", .bool true)], .dict [("y", .bool true)]])])),
      .ok (some (.dict [("a", .dict [("y", .bool true), ("z", .bool true)]), ("l", .list [.dict [("y", .bool true), ("z", .bool true)],
        .dict [("y", .bool true), ("z", .bool true)], .dict [("y", .bool true), ("z", .bool true)]])])),
      .ok (some (.dict [("a", .dict [("y", .bool true), ("z", .bool true)]), ("l", .list [.dict [("y", .bool true), ("z", .bool true)],
        .dict [("y", .bool true), ("z", .bool true)], .dict [("y", .bool true), ("z", .bool true)]])]))] := by decide +kernel

/-- The same value, built without sharing and with it. -/
example : treeOf sharedType sharedStore 3 = ofVal sharedType
      (.seq [some (.seq [some (.bool true), none]), some (.seq [some (.bool true), none]),
        some (.seqOf [.seq [some (.bool true), none], .seq [some (.bool true), none]])]) ∧
    quiet sharedType = true ∧ IsA sharedStore sharedType 3 ∧ steady sharedType
      (.seq [some (.seq [some (.bool true), none]), some (.seq [some (.bool true), none]),
        some (.seqOf [.seq [some (.bool true), none], .seq [some (.bool true), none]])]) = true := by
  exact ⟨rfl, rfl, rfl, rfl⟩

end Verif.Props
