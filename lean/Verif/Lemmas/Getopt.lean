import Verif.Model.Getopt
import Verif.Spec.Getopt

/-! # `getopt` and how options are written -/

namespace Quad.Driver
open Spec

/-- the option string has the letters `fls` without and `als` with an argument -/
structure Letters (os fls als : List Char) : Prop where
  flag : ∀ c, c ∈ fls → hasArg c os = some false
  arg : ∀ c, c ∈ als → hasArg c os = some true
  none' : ∀ c, c ∉ fls → c ∉ als → hasArg c os = none
  dash : '-' ∉ fls ∧ '-' ∉ als

theorem hasArg_skip {a c : Char} (q : a ≠ c ∨ a = ':') (s : List Char) : hasArg c (a :: s) = hasArg c s := by
  rw [hasArg, if_neg]
  rintro ⟨rfl, q'⟩
  rcases q with q | q
  · exact q rfl
  · exact q' q

variable {os fls als : List Char}

theorem scan_flags (L : Letters os fls als) {fl : List Char} (h : ∀ c ∈ fl, c ∈ fls) (cs : List Char) :
    scan os (fl ++ cs) = (fl.map (fun c => (c, [])) ++ (scan os cs).1, (scan os cs).2) := by
  induction fl with
  | nil => rfl
  | cons c fl ih =>
    rw [List.cons_append, scan, L.flag _ (h c (by simp)), ih (fun d hd => h d (by simp [hd]))]
    rfl

theorem scan_arg (L : Letters os fls als) {c : Char} (h : c ∈ als) (x : List Char) :
    scan os (c :: x) = if x = [] then ([], some c) else ([(c, x)], none) := by
  rw [scan, L.arg _ h]

/-- how letters go on: all are flags; or flags, then an option with an argument; or flags, then a letter that is no option -/
theorem letters_cases (cs : List Char) : (∀ c ∈ cs, c ∈ fls) ∨
    ∃ fl c x, cs = fl ++ c :: x ∧ (∀ c ∈ fl, c ∈ fls) ∧ (c ∈ als ∨ c ∉ fls ∧ c ∉ als) := by
  induction cs with
  | nil => exact .inl (by simp)
  | cons a t ih =>
    by_cases ha : a ∈ fls
    · rcases ih with ih | ⟨fl, c, x, e, h, q⟩
      · left
        intro c hc
        rcases List.mem_cons.1 hc with rfl | hc
        · exact ha
        · exact ih c hc
      · right
        refine ⟨a :: fl, c, x, by rw [e]; rfl, ?_, q⟩
        intro d hd
        rcases List.mem_cons.1 hd with rfl | hd
        · exact ha
        · exact h d hd
    · right
      exact ⟨[], a, t, rfl, by simp, by by_cases hb : a ∈ als <;> [exact .inl hb; exact .inr ⟨ha, hb⟩]⟩

theorem flag_ne (L : Letters os fls als) {fl cs : List Char} (h : ∀ c ∈ fl, c ∈ fls) (hc : ∀ c ∈ cs.head?, c ≠ '-') (hn : fl ++ cs ≠ []) :
    '-' :: (fl ++ cs) ≠ ['-', '-'] ∧ ('-' :: (fl ++ cs)).head? = some '-' ∧ '-' :: (fl ++ cs) ≠ ['-'] := by
  refine ⟨fun e => ?_, rfl, fun e => hn (List.cons.inj e).2⟩
  have e := (List.cons.inj e).2
  cases fl with
  | nil =>
    rw [List.nil_append] at e
    exact hc '-' (by rw [e]; rfl) rfl
  | cons a t =>
    have := h a (by simp)
    rw [(List.cons.inj e).1] at this
    exact absurd this L.dash.1

theorem arg_ne_dash (L : Letters os fls als) {c : Char} (h : c ∈ als) : c ≠ '-' := by
  rintro rfl; exact L.dash.2 h

theorem getopt_written (L : Letters os fls als) {posix : Bool} {argv : List (List Char)} {opts : List (Char × List Char)}
    (h : OnLine fls als posix argv opts) : getopt os posix argv = opts := by
  induction h with
  | nil => rfl
  | stop rest => unfold getopt; rw [if_pos rfl]
  | @together argv opts fl hne hfl _ ih =>
    have q := flag_ne L (cs := []) hfl (by simp) (by simpa using hne)
    rw [List.append_nil] at q
    have s := scan_flags L hfl []
    rw [List.append_nil] at s
    unfold getopt
    rw [if_neg q.1, if_pos q.2, List.tail_cons, s]
    simp only [scan]
    rw [ih, List.append_nil]
  | @joined argv opts fl c x hfl hc hx _ ih =>
    have q := flag_ne L (cs := c :: x) hfl (by simpa using arg_ne_dash L hc) (by simp)
    have s := scan_flags L hfl (c :: x)
    rw [scan_arg L hc, if_neg hx] at s
    unfold getopt
    rw [if_neg q.1, if_pos q.2, List.tail_cons, s]
    simp only
    rw [ih]; simp
  | @apart argv opts fl c x hfl hc _ ih =>
    have q := flag_ne L (cs := [c]) hfl (by simpa using arg_ne_dash L hc) (by simp)
    have s := scan_flags L hfl [c]
    rw [scan_arg L hc, if_pos rfl] at s
    unfold getopt
    rw [if_neg q.1, if_pos q.2, List.tail_cons, s]
    simp only
    rw [ih]; simp
  | @other argv opts x hx hp _ ih =>
    unfold getopt
    rw [if_neg (by rintro rfl; rcases hx with hx | hx <;> simp at hx),
      if_neg (by rintro ⟨a, b⟩; rcases hx with hx | hx <;> [exact hx a; exact b hx]), ih, hp]
    rfl
  | otherStrict x rest hx hp =>
    unfold getopt
    rw [if_neg (by rintro rfl; rcases hx with hx | hx <;> simp at hx),
      if_neg (by rintro ⟨a, b⟩; rcases hx with hx | hx <;> [exact hx a; exact b hx]), hp]
    rfl

theorem written_or (L : Letters os fls als) : ∀ (posix : Bool) (argv : List (List Char)),
    (∃ args, OnLine fls als posix argv args) ∨ ('?', []) ∈ getopt os posix argv := by
  intro posix argv
  induction hl : argv.length using Nat.strongRecOn generalizing argv with
  | _ l ih =>
  subst hl
  cases argv with
  | nil => exact .inl ⟨_, .nil⟩
  | cons a rest =>
    by_cases h1 : a = ['-', '-']
    · subst h1; exact .inl ⟨_, .stop rest⟩
    by_cases h2 : a.head? = some '-' ∧ a ≠ ['-']
    · obtain ⟨cs, rfl⟩ : ∃ cs, a = '-' :: cs := by
        cases a with
        | nil => simp at h2
        | cons x t => exact ⟨t, by rw [Option.some.inj h2.1]⟩
      have hcs : cs ≠ [] := fun e => h2.2 (by rw [e])
      rcases letters_cases cs with hfl | ⟨fl, c, x, rfl, hfl, hc | hc⟩
      · rcases ih rest.length (by simp) rest rfl with ⟨args, w⟩ | hq
        · exact .inl ⟨_, .together cs hcs hfl w⟩
        · right
          have s := scan_flags L hfl []
          rw [List.append_nil] at s
          unfold getopt
          rw [if_neg h1, if_pos h2, List.tail_cons, s]
          simp only [scan]
          exact List.mem_append_right _ hq
      · by_cases hx : x = []
        · subst hx
          have s := scan_flags L hfl [c]
          rw [scan_arg L hc, if_pos rfl] at s
          cases rest with
          | nil =>
            right
            unfold getopt
            rw [if_neg h1, if_pos h2, List.tail_cons, s]
            simp
          | cons y rest =>
            rcases ih rest.length (by simp only [List.length_cons]; omega) rest rfl with ⟨args, w⟩ | hq
            · exact .inl ⟨_, .apart fl c y hfl hc w⟩
            · right
              unfold getopt
              rw [if_neg h1, if_pos h2, List.tail_cons, s]
              simp only
              exact List.mem_append_right _ (List.mem_cons_of_mem _ hq)
        · rcases ih rest.length (by simp) rest rfl with ⟨args, w⟩ | hq
          · exact .inl ⟨_, .joined fl c x hfl hc hx w⟩
          · right
            have s := scan_flags L hfl (c :: x)
            rw [scan_arg L hc, if_neg hx] at s
            unfold getopt
            rw [if_neg h1, if_pos h2, List.tail_cons, s]
            simp only
            exact List.mem_append_right _ hq
      · right
        have s := scan_flags L hfl (c :: x)
        have s' : scan os (c :: x) = (('?', []) :: (scan os x).1, (scan os x).2) := by
          rw [scan, L.none' _ hc.1 hc.2]
        rw [s'] at s
        have m : ('?', []) ∈ (scan os (fl ++ c :: x)).1 := by
          rw [s]; simp
        unfold getopt
        rw [if_neg h1, if_pos h2, List.tail_cons]
        split
        · exact List.mem_append_left _ m
        · exact List.mem_append_left _ m
        · exact List.mem_append_left _ m
    · have hx : a.head? ≠ some '-' ∨ a = ['-'] := by
        by_contra c
        rw [not_or, not_not] at c
        exact h2 c
      cases hp : posix with
      | true => exact .inl ⟨_, .otherStrict a rest hx rfl⟩
      | false =>
        rcases ih rest.length (by simp) rest rfl with ⟨args, w⟩ | hq
        · exact .inl ⟨args, .other a hx rfl (hp ▸ w)⟩
        · right
          unfold getopt
          rw [if_neg h1, if_neg h2]
          rw [hp] at hq
          exact hq

/-- options have the letters of the option string -/
theorem onLine_letters {p : Bool} {a : List (List Char)} {o : List (Char × List Char)} (w : OnLine fls als p a o) : ∀ y ∈ o, y.1 ∈ fls ++ als := by
  induction w with
  | nil => simp
  | stop => simp
  | together fl _ h _ ih =>
    intro y hy
    rcases List.mem_append.1 hy with hy | hy
    · obtain ⟨c, hc, rfl⟩ := List.mem_map.1 hy; exact List.mem_append_left _ (h c hc)
    · exact ih y hy
  | joined fl c x h hc _ _ ih =>
    intro y hy
    rcases List.mem_append.1 hy with hy | hy
    · obtain ⟨c, hc, rfl⟩ := List.mem_map.1 hy; exact List.mem_append_left _ (h c hc)
    · rcases List.mem_cons.1 hy with rfl | hy
      · exact List.mem_append_right _ hc
      · exact ih y hy
  | apart fl c x h hc _ ih =>
    intro y hy
    rcases List.mem_append.1 hy with hy | hy
    · obtain ⟨c, hc, rfl⟩ := List.mem_map.1 hy; exact List.mem_append_left _ (h c hc)
    · rcases List.mem_cons.1 hy with rfl | hy
      · exact List.mem_append_right _ hc
      · exact ih y hy
  | other x _ _ _ ih => exact ih
  | otherStrict => simp

end Quad.Driver
