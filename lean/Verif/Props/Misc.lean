import Verif.Lemmas.Misc

/-!
# Printing of 128-bit integers and of memory (C65, C66)

`print_u128 mem v` and `print_i128 mem v` are the characters `dest << v` writes, `mem` being what
the memory of the local buffer holds.  `hex_dump mem os buffer bufsize text` is the stream
afterwards.
-/

namespace Quad.Props
open Quad Quad.Misc Quad.Spec

/-- C65: an unsigned 128-bit integer is printed as its decimal digits, at most 39 -/
theorem C65_unsigned (mem : Nat → Nat) {v : Nat} (hv : v < 2 ^ 128) :
    ∃ s, print_u128 mem v = .ok s ∧ Decimal s ∧ decVal s = v ∧ s.length ≤ 39 :=
  print_u128_spec mem hv

/-- the digits determine the number, so different integers are printed differently -/
theorem C65_unsigned_injective (mem mem' : Nat → Nat) {v w : Nat} (hv : v < 2 ^ 128) (hw : w < 2 ^ 128)
    (h : print_u128 mem v = print_u128 mem' w) : v = w := by
  obtain ⟨s, e, -, r, -⟩ := print_u128_spec mem hv
  obtain ⟨s', e', -, r', -⟩ := print_u128_spec mem' hw
  rw [e, e'] at h
  rw [← r, ← r', Except.ok.inj h]

/-- C65: a signed 128-bit integer is printed as the digits of its absolute value, with a minus
sign in front if it is negative.
Missing: the least value, see `C65_least_undefined`. -/
theorem C65_signed_partial (mem : Nat → Nat) {v : Int} (h1 : -2 ^ 127 < v) (h2 : v < 2 ^ 127) :
    ∃ s, print_i128 mem v = .ok ((if v < 0 then [45] else []) ++ s) ∧ Decimal s ∧ decVal s = v.natAbs :=
  print_i128_spec mem h1 h2

/-- C65 fails for the least signed value: it has no opposite -/
theorem C65_least_undefined (mem : Nat → Nat) : print_i128 mem (-2 ^ 127) = ub := by
  unfold print_i128 negI128
  rw [if_pos (by norm_num), if_pos rfl]; rfl

example : print_u128 (fun _ => 7) (2 ^ 64) = .ok ("18446744073709551616".toList.map Char.toNat) := by decide +kernel
example : print_u128 (fun _ => 7) 0 = .ok ("0".toList.map Char.toNat) := by decide +kernel
example : print_i128 (fun _ => 7) (-120) = .ok ("-120".toList.map Char.toNat) := by decide +kernel

/-- C66: on any stream, a dump consists of lines of 32 bytes, bytes being shown one after the
other in a way that depends on the flags of the stream only; the flags and the fill character
are restored; no memory but the bytes dumped is read -/
theorem C66_any_stream : ∃ fmt : Flags → Nat → List Nat, ∀ (mem : Nat → Nat) (os : OS) (a : Array Nat) (n : Nat)
    (text : Bool), n ≤ a.size →
    hex_dump mem os (some a) n text = .ok ⟨os.out ++ dump (fmt os.flags) text (a.toList.take n), os.flags, os.fill⟩ :=
  ⟨byteOut, fun mem os _ _ text hn => hex_dump_spec mem os hn text⟩

/-- C66: on a stream that aligns numbers to the right and shows no base, as streams do unless told
otherwise, bytes are shown as two hexadecimal digits and a blank.
Missing: streams that align to the left, see `C66_left_ambiguous`, and streams that show the base,
where `0x` makes columns drift. -/
theorem C66_dump_partial (mem : Nat → Nat) (os : OS) (ha : os.flags.adjust ≠ .left) (hs : os.flags.showbase = false)
    {a : Array Nat} (hb : ∀ b ∈ a.toList, b < 256) {n : Nat} (hn : n ≤ a.size) (text : Bool) :
    hex_dump mem os (some a) n text
      = .ok ⟨os.out ++ dump (hexByte os.flags.uppercase) text (a.toList.take n), os.flags, os.fill⟩ := by
  rw [hex_dump_spec mem os hn text,
    dump_congr (v := hexByte os.flags.uppercase)
      (fun b h => byteOut_eq os.flags (hb b (List.mem_of_mem_take h)) ha hs)]

/-- C66: from such a dump the bytes and their number can be told -/
theorem C66_injective (mem mem' : Nat → Nat) (os : OS) (ha : os.flags.adjust ≠ .left)
    (hs : os.flags.showbase = false) {a a' : Array Nat} (hb : ∀ b ∈ a.toList, b < 256)
    (hb' : ∀ b ∈ a'.toList, b < 256) (text : Bool)
    (h : hex_dump mem os (some a) a.size text = hex_dump mem' os (some a') a'.size text) : a = a' := by
  rw [C66_dump_partial mem os ha hs hb (le_refl _) text, C66_dump_partial mem' os ha hs hb' (le_refl _) text] at h
  have h := List.append_cancel_left (congrArg OS.out (Except.ok.inj h))
  rw [List.take_of_length_le (by simp), List.take_of_length_le (by simp)] at h
  exact Array.toList_inj.1 (dump_inj a.size (by simp) hb hb' h)

/-- the same through the C API: the characters are always shown -/
theorem C66_c_api (mem : Nat → Nat) (cerr : OS) (ha : cerr.flags.adjust ≠ .left) (hs : cerr.flags.showbase = false)
    {a : Array Nat} (hb : ∀ b ∈ a.toList, b < 256) {n : Nat} (hn : n ≤ a.size) :
    quadiron_hex_dump mem cerr (some a) n
      = .ok ⟨cerr.out ++ dump (hexByte cerr.flags.uppercase) true (a.toList.take n), cerr.flags, cerr.fill⟩ :=
  C66_dump_partial mem cerr ha hs hb hn true

/-- the null pointer is dumped as nothing, whatever the size -/
theorem C66_null (mem : Nat → Nat) (os : OS) (n : Nat) (text : Bool) : hex_dump mem os none n text = .ok os := rfl

/-- C66 fails on streams that align numbers to the left: the bytes `05` and `50` are dumped alike -/
theorem C66_left_ambiguous (mem : Nat → Nat) (os : OS) (ha : os.flags.adjust = .left)
    (hs : os.flags.showbase = false) :
    hex_dump mem os (some #[5]) 1 false = hex_dump mem os (some #[80]) 1 false ∧
      ∃ r, hex_dump mem os (some #[5]) 1 false = .ok r := by
  have e : byteOut os.flags 5 = byteOut os.flags 80 := by
    obtain ⟨out, ⟨b, a, s, u⟩, f⟩ := os
    simp only at ha hs
    subst ha hs
    show byteOut ⟨b, .left, false, u⟩ 5 = byteOut ⟨b, .left, false, u⟩ 80
    cases b <;> cases u <;> decide +kernel
  rw [hex_dump_spec mem os (by simp) false, hex_dump_spec mem os (by simp) false]
  refine ⟨?_, _, rfl⟩
  rw [dump_last _ _ (by simp) (by simp), dump_last _ _ (by simp) (by simp)]
  simp [dumpLine, e]

/-- a stream as it is when created -/
example : hex_dump (fun _ => 7) ⟨[], ⟨.dec, .right, false, false⟩, 32⟩ (some #[72, 105, 10, 255]) 4 true
    = .ok ⟨("48 69 0a ff ".toList ++ List.replicate 84 ' ' ++ " | Hi..\n".toList).map Char.toNat,
        ⟨.dec, .right, false, false⟩, 32⟩ := by decide +kernel

end Quad.Props
