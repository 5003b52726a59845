import Verif.SpecFiles
import Verif.Lemmas.Compiled
import Verif.Lemmas.ParseTabs
/-!
# Names of modules, and paths
-/
namespace Verif.Files

open Verif.Parse
open Verif.Spec (UpperName Ends PlainName SameBut moduleFile WritableAssign Written plainAssign)

/-! ## paths -/

theorem pieces_ne_nil : ∀ a : Path, pieces a ≠ []
  | [] => by simp [pieces]
  | c :: a => by
    rw [pieces]
    split
    · simp
    · split <;> simp

theorem pieces_append (a b : Path) : pieces (a ++ '/' :: b) = pieces a ++ pieces b := by
  induction a with
  | nil => simp [pieces]
  | cons c a ih =>
    rw [List.cons_append]
    simp only [pieces, ih]
    split
    · rfl
    · cases h : pieces a with
      | nil => exact absurd h (pieces_ne_nil a)
      | cons p ps => rfl

theorem pieces_plain {a : Path} (h : '/' ∉ a) : pieces a = [a] := by
  induction a with
  | nil => rfl
  | cons c a ih =>
    simp only [List.mem_cons, not_or] at h
    rw [pieces, if_neg (Ne.symm h.1), ih h.2]

theorem place_join {a b : Path} (ha : a ≠ []) (hb : '/' ∉ b) (h0 : b ≠ []) (h1 : b ≠ ['.']) :
    Files.place (join a b) = ⟨(Files.place a).root, (Files.place a).names ++ [b]⟩ := by
  have hk : (pieces b).filter (fun n => n != [] && n != ['.']) = [b] := by
    rw [pieces_plain hb, List.filter_cons_of_pos, List.filter_nil]
    simp [h0, h1]
  have hh : b.head? ≠ some '/' := fun h => hb (List.mem_of_mem_head? h)
  unfold join
  rw [if_neg hh]
  split
  · next h =>
    obtain ⟨a', rfl⟩ : ∃ a', a = a' ++ ['/'] := by
      rcases h with h | h
      · exact absurd h ha
      · obtain ⟨a', e⟩ := List.getLast?_eq_some_iff.1 h
        exact ⟨a', e⟩
    have e : a' ++ ['/'] ++ b = a' ++ '/' :: b := by simp
    have e0 : pieces (a' ++ ['/']) = pieces a' ++ [[]] := pieces_append a' []
    simp only [Files.place, e, pieces_append, e0, List.filter_append, hk, Place.mk.injEq]
    refine ⟨?_, ?_⟩
    · cases a' <;> rfl
    · simp
  · simp only [Files.place, pieces_append, List.filter_append, hk, Place.mk.injEq, and_true]
    cases a with
    | nil => exact absurd rfl ha
    | cons c a => rfl

/-! ## names -/

theorem plain_slash {name : String} (h : PlainName name) : '/' ∉ name.toList ++ ".py".toList := by
  intro hm
  rcases List.mem_append.1 hm with hm | hm
  · rcases h.2 _ hm with h | h | h
    · exact absurd h (by decide)
    · exact absurd h (by decide)
    · exact absurd h (by decide)
  · exact absurd hm (by decide)

theorem place_module {name : String} (h : PlainName name) {folder : Path} (hf : folder ≠ []) :
    Files.place (join folder (name.toList ++ ".py".toList)) = moduleFile folder name := by
  obtain ⟨c, r, hc, -⟩ := h.1
  refine place_join hf (plain_slash h) (by simp [hc]) ?_
  intro e
  have := congrArg List.length e
  simp [hc] at this

theorem module_run {T V : P} {s r : List Char} {toks : List Parse.Tok} (h : (moduleDefinition T V).run s = .ok (toks, r)) :
    ∃ t r' u, typereference.run s = .ok (t, r') ∧ toks = t ++ u := by
  simp only [moduleDefinition, seqs, Parse.seq, modulereference, bind, Except.bind] at h
  split at h
  · cases h
  · next x hx =>
    refine ⟨x.1, x.2, ?_⟩
    split at h
    · cases h
    · next y hy => cases h; exact ⟨_, hx, rfl⟩

theorem typeref_name {s r : List Char} {t : List Parse.Tok} (h : typereference.run s = .ok (t, r)) :
    ∃ n, t = [.str n] ∧ PlainName n := by
  simp only [typereference, word, terminal] at h
  split at h
  · next w q e =>
    cases h
    obtain ⟨c, l, rfl, hc, hl⟩ := matchWord_some e
    refine ⟨_, rfl, ⟨c, l, String.toList_ofList, hc⟩, fun x hx => ?_⟩
    rw [String.toList_ofList] at hx
    rcases List.mem_cons.1 hx with rfl | hx
    · exact .inl (upper_alphanum hc)
    · have := hl x hx
      simp only [isBody, Bool.or_eq_true, beq_iff_eq, or_assoc] at this
      exact this
  · cases h

theorem parseNamed_eq (text : List Char) : parseModule text = (parseNamed text).map Prod.snd := by
  unfold parseModule parseNamed
  simp only [bind, Except.bind, pure, Except.pure]
  cases (moduleDefinition (type ((expandTabs 0 text).length + 1) ((expandTabs 0 text).length + 1))
    (value ((expandTabs 0 text).length + 1))).run (expandTabs 0 text) <;> rfl

theorem parseNamed_name {text : List Char} {name : String} {as : List Assign} (h : parseNamed text = .ok (name, as)) :
    PlainName name := by
  unfold parseNamed at h
  simp only [bind, Except.bind] at h
  split at h
  · cases h
  · next x hx =>
    obtain ⟨t, r', u, h1, h2⟩ := module_run hx
    obtain ⟨n, rfl, hn⟩ := typeref_name h1
    cases h
    rw [h2]
    exact hn

theorem parseNamed_written {name : String} {tags : Bool} {as : List Assign} {text : List Char} (hn : UpperName name ∧ Ends name)
    (ha : ∀ a ∈ as, WritableAssign a) (h : Written name tags as text) : parseNamed text = .ok (name, as.map plainAssign) := by
  have hp := parseModule_written hn ha h
  rw [parseNamed_eq] at hp
  cases e : parseNamed text with
  | error _ => rw [e] at hp; cases hp
  | ok x =>
    obtain ⟨n, as'⟩ := x
    rw [e] at hp
    cases hp
    congr 2
    unfold parseNamed at e
    simp only [bind, Except.bind] at e
    split at e
    · cases e
    · next x hx =>
      obtain ⟨t, r', u, h1, h2⟩ := module_run hx
      have e1 : nameOf x.1 = n := congrArg Prod.fst (Except.ok.inj e)
      rw [← e1, h2]
      obtain ⟨w, s, rfl, hw, h⟩ := h
      obtain ⟨w', col, e, hw', -⟩ := expand_blank w s 0 hw
      have h3 := expand_laid col (noTab_module hn.1 ha) h
      have hskip : skipWs (w' ++ expandTabs col s) = expandTabs col s := by
        rw [skipWs_append (fun c hc => isWs_iff.2 (hw' c hc)), laid_skip h3]
      have h4 := (typeref_reads h3 hn.1 hn.2).yields
      rw [← hskip] at h4
      obtain ⟨r, -, h5, -⟩ := Yields.skip.1 h4
      rw [e] at h1
      rw [h5] at h1
      cases h1
      rfl

end Verif.Files
