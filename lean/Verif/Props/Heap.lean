import Verif.Lemmas.Heap
/-!
# C65: what `decode` returns depends on the class of `asn1Spec` only
-/
namespace Verif.Props

open Verif Spec Heap

/-- C65: `decode` with any object of a class, whatever is in it, and however its parts and the objects of the classes are
shared or have been used before, returns (or raises) what `Verif.decode` says for the class. -/
theorem C65_result {h : Heap} {x : Nat} {t : Ty} {n : Nat} (w : WellFormed h) (o : Has h x t) (l : height t ≤ n)
    (stream : List UInt8) : (decodeAt n x stream h).1 = decode t stream := (decodeAt_eq w o l stream).1

/-- C65: two objects of one class are as good as each other, in any two programs. -/
theorem C65_same {h h' : Heap} {x x' : Nat} {t : Ty} {n : Nat} (w : WellFormed h) (w' : WellFormed h') (o : Has h x t)
    (o' : Has h' x' t) (l : height t ≤ n) (stream : List UInt8) :
    (decodeAt n x stream h).1 = (decodeAt n x' stream h').1 := by rw [C65_result w o l, C65_result w' o' l]

/-- C65: no call has an effect on what later ones return, with the same object or others, also if calls raise. -/
theorem C65_history {h : Heap} {n : Nat} {cls : Nat → Ty} {calls : List (Nat × List UInt8)} (w : WellFormed h)
    (o : ∀ c ∈ calls, Has h c.1 (cls c.1) ∧ height (cls c.1) ≤ n) :
    (decodeCalls n calls h).1 = calls.map fun c => decode (cls c.1) c.2 := (decodeCalls_eq calls h w o).1

/-- C65: objects stay objects of their classes, so that the program can go on with them. -/
theorem C65_usable {h : Heap} {n : Nat} {cls : Nat → Ty} {calls : List (Nat × List UInt8)} (w : WellFormed h)
    (o : ∀ c ∈ calls, Has h c.1 (cls c.1) ∧ height (cls c.1) ≤ n) :
    WellFormed (decodeCalls n calls h).2 ∧ ∀ x t, Has h x t → Has (decodeCalls n calls h).2 x t :=
  ⟨(decodeCalls_eq calls h w o).2.1, fun _ _ => kept_has (decodeCalls_eq calls h w o).2.2⟩

/-- C65, in part: any number of calls leave all values, the elements of every SEQUENCE OF, every component that was set and
the objects of the classes where they were.  Missing: a CHOICE may select something else afterwards
(`Findings.C65_choice_lost`), and components that were not set may be. -/
theorem C65_kept_partial {h : Heap} {n : Nat} {cls : Nat → Ty} {calls : List (Nat × List UInt8)} (w : WellFormed h)
    (o : ∀ c ∈ calls, Has h c.1 (cls c.1) ∧ height (cls c.1) ≤ n) : KeptObjects h (decodeCalls n calls h).2 :=
  (decodeCalls_eq calls h w o).2.2

/-- C65: every type has objects, in every program. -/
theorem C65_objects {h : Heap} (w : WellFormed h) (t : Ty) :
    ∃ h' x, WellFormed h' ∧ KeptObjects h h' ∧ Has h' x t := by
  obtain ⟨h', as, w', k, e⟩ := makes _ t (Nat.le_refl _) h w
  obtain ⟨x, _, o⟩ := e 0 t rfl
  exact ⟨h', x, w', k, o⟩

/-! ## Examples -/

def heapByte : Ty := .integer (.valueRange (some 0) (some 255) false)

def heapChoice : Ty :=
  .choice false (.cons "b" .mandatory .boolean (.cons "i" .mandatory heapByte .nil)) .nil .nil

def heapList : Ty := .seqOf ⟨false, some 0, some 3⟩ heapChoice

def heapSeq : Ty :=
  .sequence false (.cons "c" .mandatory heapChoice (.cons "l" .optional heapList .nil)) .nil .nil

/-- The objects of the classes of `heapSeq`, an object of it (4) with a CHOICE that holds a value, and one (7) that shares
that CHOICE. -/
def heapSample : Heap :=
  [{ cls := .boolean }, { cls := heapByte }, { cls := heapChoice, attrs := [0, 1] }, { cls := heapList, attrs := [2] },
    { cls := heapSeq, attrs := [2, 3], slots := [some 5, none] },
    { cls := heapChoice, attrs := [0, 1], sel := some (1, 6) }, { cls := heapByte, value := some (.int 7) },
    { cls := heapSeq, attrs := [2, 3], slots := [some 5, none] }]

theorem heapSample_wf : WellFormed heapSample := by
  have b : Has heapSample 0 .boolean := ⟨_, rfl, rfl⟩
  have i : Has heapSample 1 heapByte := ⟨_, rfl, rfl⟩
  have c : Has heapSample 2 heapChoice := ⟨_, rfl, rfl⟩
  have l : Has heapSample 3 heapList := ⟨_, rfl, rfl⟩
  have c' : Has heapSample 5 heapChoice := ⟨_, rfl, rfl⟩
  have i' : Has heapSample 6 heapByte := ⟨_, rfl, rfl⟩
  have two : ∀ {t0 t1 : Ty} {a0 a1 : Nat}, Has heapSample a0 t0 → Has heapSample a1 t1 → ∀ (i : Nat) (t : Ty),
      [t0, t1][i]? = some t → ∃ a, [a0, a1][i]? = some a ∧ Has heapSample a t := by
    intro t0 t1 a0 a1 h0 h1 i t e
    match i with
    | 0 => cases e; exact ⟨a0, rfl, h0⟩
    | 1 => cases e; exact ⟨a1, rfl, h1⟩
    | i + 2 => cases e
  have one : ∀ {t0 t1 : Ty} {a0 : Nat}, Has heapSample a0 t0 → ∀ (i a : Nat),
      [some a0, none][i]? = some (some a) → ∀ t : Ty, [t0, t1][i]? = some t → Has heapSample a t := by
    intro t0 t1 a0 h0 i a e t e'
    match i with
    | 0 => cases e; cases e'; exact h0
    | 1 => cases e
    | i + 2 => cases e
  intro x o e
  match x with
  | 0 => cases e; exact ⟨fun _ _ e => (nomatch e), fun _ _ e => (nomatch e), fun _ _ e => (nomatch e)⟩
  | 1 => cases e; exact ⟨fun _ _ e => (nomatch e), fun _ _ e => (nomatch e), fun _ _ e => (nomatch e)⟩
  | 2 => cases e; exact ⟨two b i, fun _ _ e => (nomatch e), fun _ _ e => (nomatch e)⟩
  | 3 =>
    cases e
    refine ⟨fun j t e => ?_, fun _ _ e => (nomatch e), fun _ _ e => (nomatch e)⟩
    match j with
    | 0 => cases e; exact ⟨2, rfl, c⟩
    | j + 1 => cases e
  | 4 => cases e; exact ⟨two c l, one c', fun _ _ e => (nomatch e)⟩
  | 5 => cases e; exact ⟨two b i, fun _ _ e => (nomatch e), fun _ _ e t e' => by cases e; cases e'; exact i'⟩
  | 6 => cases e; exact ⟨fun _ _ e => (nomatch e), fun _ _ e => (nomatch e), fun _ _ e => (nomatch e)⟩
  | 7 => cases e; exact ⟨two c l, one c', fun _ _ e => (nomatch e)⟩
  | x + 8 => cases e

theorem heapSample_seq : Has heapSample 4 heapSeq ∧ Has heapSample 7 heapSeq := ⟨⟨_, rfl, rfl⟩, ⟨_, rfl, rfl⟩⟩

/-- The hypotheses of the theorems hold for calls with both objects. -/
example (s0 s1 s2 : List UInt8) : ∀ c ∈ [(4, s0), (7, s1), (4, s2)],
    Has heapSample c.1 heapSeq ∧ height heapSeq ≤ 5 := by
  have l : height heapSeq ≤ 5 := by decide +kernel
  intro c m
  simp only [List.mem_cons, List.not_mem_nil, or_false] at m
  rcases m with rfl | rfl | rfl
  · exact ⟨heapSample_seq.1, l⟩
  · exact ⟨heapSample_seq.2, l⟩
  · exact ⟨heapSample_seq.1, l⟩

/-- A message with two elements, one without the list, a broken one, and the first again with the other object. -/
example : (decodeCalls 5 [(4, [177, 9]), (4, [64, 200]), (7, []), (7, [177, 9])] heapSample).1 =
    [.ok (.seq [some (.choice 0 (.bool true)), some (.seqOf [.choice 0 (.bool false), .choice 1 (.int 9)])]),
      .ok (.seq [some (.choice 1 (.int 200)), none]), .error .valueError,
      .ok (.seq [some (.choice 0 (.bool true)), some (.seqOf [.choice 0 (.bool false), .choice 1 (.int 9)])])] := by
  decide +kernel

end Verif.Props
