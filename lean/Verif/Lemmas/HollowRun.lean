import Verif.Model.Objects
import Verif.Model.Links

/-!
# One expansion, step by step

The run of `expand` in `C78_twins_simplified` and `C108_hollow`: what each node gives, and which objects there are after it. The stores are written out, so
that every step is checked on its own and with little memory.
-/

namespace GPyABCD
open Objects KE

/-- The base kernels in some order. -/
def someOrders : Orders := ⟨[.WN, .C, .LIN, .PER], [.WN, .LIN, .PER]⟩

namespace HollowRun

/-- Whether a call returns this and leaves this store. -/
def ends {β : Type} [DecidableEq β] (m : M β) (h : Heap) (a : β) (h' : Heap) : Bool :=
  match m h with
  | (.ok x, h1) => decide (x = a ∧ h1 = h')
  | _ => false

theorem ends_iff {β : Type} [DecidableEq β] {m : M β} {h h' : Heap} {a : β} (h1 : ends m h a h' = true) : m h = (.ok a, h') := by
  rw [ends] at h1
  revert h1
  rcases m h with ⟨_ | x, h⟩
  · intro h1; cases h1
  · intro h1
    obtain ⟨rfl, rfl⟩ := of_decide_eq_true h1
    rfl

private theorem collect_of {β γ : Type} {f : β → M γ} {x : β} {xs : List β} {y : γ} {ys : List γ} {h h1 h2 : Heap} (e : f x h = (.ok y, h1))
    (e2 : collect f xs h1 = (.ok ys, h2)) : collect f (x :: xs) h = (.ok (y :: ys), h2) := by
  simp only [collect, bind, e, e2, pure]

private theorem bind_ok {β γ : Type} {m : M β} {f : β → M γ} {x : β} {h h1 : Heap} (e : m h = (.ok x, h1)) : (m >>= f) h = f x h1 := by
  show (match m h with | (.ok x, h') => f x h' | (.error e, h') => (.error e, h')) = _
  rw [e]

private theorem collect_nil {β γ : Type} {f : β → M γ} {h : Heap} : collect f [] h = (.ok [], h) := rfl

private theorem collect_append {β γ : Type} {f : β → M γ} {xs ys : List β} {us vs : List γ} {h h1 h2 : Heap} (e : collect f xs h = (.ok us, h1))
    (e2 : collect f ys h1 = (.ok vs, h2)) : collect f (xs ++ ys) h = (.ok (us ++ vs), h2) := by
  induction xs generalizing us h with
  | nil =>
    simp only [collect, pure, Prod.mk.injEq, Except.ok.injEq] at e
    obtain ⟨rfl, rfl⟩ := e
    exact e2
  | cons x xs ih =>
    simp only [List.cons_append, collect, bind, pure] at e ⊢
    rcases hx : f x h with ⟨_ | y, h3⟩
    · rw [hx] at e; cases e
    · rw [hx] at e
      simp only at e ⊢
      rcases hz : collect f xs h3 with ⟨_ | z, h4⟩
      · rw [hz] at e; cases e
      · rw [hz] at e
        simp only [Prod.mk.injEq, Except.ok.injEq] at e
        obtain ⟨rfl, rfl⟩ := e
        rw [ih hz]
        rfl

/-- A sum of two equal change points with simplified branches that have an empty sum in them, and what is in the store besides: two nodes that
simplification has taken out (4 and 10), and a copy (from 13). -/
def store : Heap := [
  .comm (some 0) none .sum [] [1, 7],
  .change (some 0) (some 0) .CP (.obj 2) (.str .LIN),
  .comm (some 0) (some 1) .prod [(.PER, 1)] [3],
  .comm (some 0) (some 2) .sum [] [5, 6],
  .comm (some 0) (some 3) .prod [] [5],
  .comm (some 0) (some 3) .sum [] [],
  .comm (some 0) (some 3) .prod [(.LIN, 1), (.PER, 1)] [],
  .change (some 0) (some 0) .CP (.obj 8) (.str .LIN),
  .comm (some 0) (some 7) .prod [(.PER, 1)] [9],
  .comm (some 0) (some 8) .sum [] [11, 12],
  .comm (some 0) (some 9) .prod [] [11],
  .comm (some 0) (some 9) .sum [] [],
  .comm (some 0) (some 9) .prod [(.LIN, 1), (.PER, 1)] [],
  .comm (some 13) none .sum [] [14, 19],
  .change (some 13) (some 13) .CP (.obj 15) (.str .LIN),
  .comm (some 13) (some 14) .prod [(.PER, 1)] [16],
  .comm (some 13) (some 15) .sum [] [17, 18],
  .comm (some 13) (some 16) .sum [] [],
  .comm (some 13) (some 16) .prod [(.LIN, 1), (.PER, 1)] [],
  .change (some 13) (some 13) .CP (.obj 20) (.str .LIN),
  .comm (some 13) (some 19) .prod [(.PER, 1)] [21],
  .comm (some 13) (some 20) .sum [] [22, 23],
  .comm (some 13) (some 21) .sum [] [],
  .comm (some 13) (some 21) .prod [(.LIN, 1), (.PER, 1)] []]

private def c0 : Heap := [
  .comm (some 0) (some 1) .sum [(.LIN, 1)] [],
  .comm (some 0) (some 7) .sum [(.LIN, 1)] []]

private def h0 : Heap := store ++ c0

private def c1 : Heap := [
  .comm none none .sum [] [27],
  .change (some 27) (some 26) .CP (.obj 34) (.str .LIN),
  .comm (some 28) none .sum [] [29, 27],
  .change (some 28) (some 28) .CP (.obj 30) (.str .LIN),
  .comm (some 28) (some 29) .prod [(.PER, 1)] [31],
  .comm (some 28) (some 30) .sum [] [32, 33],
  .comm (some 28) (some 31) .sum [] [],
  .comm (some 28) (some 31) .prod [(.LIN, 1), (.PER, 1)] [],
  .comm (some 27) (some 27) .prod [(.PER, 1)] [37],
  .comm (some 28) (some 34) .sum [] [37],
  .comm (some 28) (some 35) .sum [] [],
  .comm (some 27) (some 34) .prod [(.LIN, 1), (.PER, 1)] [],
  .comm none none .sum [] [39],
  .change (some 39) (some 38) .CP (.obj 46) (.str .LIN),
  .comm (some 40) none .sum [] [39, 41],
  .change (some 40) (some 40) .CP (.obj 42) (.str .LIN),
  .comm (some 40) (some 41) .prod [(.PER, 1)] [43],
  .comm (some 40) (some 42) .sum [] [44, 45],
  .comm (some 40) (some 43) .sum [] [],
  .comm (some 40) (some 43) .prod [(.LIN, 1), (.PER, 1)] [],
  .comm (some 39) (some 39) .prod [(.PER, 1)] [49],
  .comm (some 40) (some 46) .sum [] [49],
  .comm (some 40) (some 47) .sum [] [],
  .comm (some 39) (some 46) .prod [(.LIN, 1), (.PER, 1)] [],
  .comm (some 50) none .sum [] [51],
  .change (some 50) (some 50) .CP (.obj 52) (.str .LIN),
  .comm (some 50) (some 51) .prod [(.PER, 1)] [53],
  .comm (some 50) (some 52) .prod [(.LIN, 1), (.PER, 1)] [],
  .comm (some 54) none .sum [] [55, 60],
  .change (some 54) (some 54) .CP (.obj 56) (.str .LIN),
  .comm (some 54) (some 55) .prod [(.PER, 1)] [57],
  .comm (some 54) (some 56) .sum [] [58, 59],
  .comm (some 54) (some 57) .sum [] [],
  .comm (some 54) (some 57) .prod [(.LIN, 1), (.PER, 1)] [],
  .change (some 54) (some 54) .CP (.obj 61) (.str .LIN),
  .comm (some 54) (some 60) .prod [(.PER, 1)] [62],
  .comm (some 54) (some 61) .sum [] [63, 64],
  .comm (some 54) (some 62) .sum [] [],
  .comm (some 54) (some 62) .prod [(.LIN, 1), (.PER, 1)] [],
  .comm (some 65) none .sum [] [66],
  .change (some 65) (some 65) .CP (.obj 67) (.str .LIN),
  .comm (some 65) (some 66) .prod [(.PER, 1)] [68],
  .comm (some 65) (some 67) .prod [(.LIN, 1), (.PER, 1)] [],
  .comm (some 69) none .sum [] [70, 75],
  .change (some 69) (some 69) .CP (.obj 71) (.str .LIN),
  .comm (some 69) (some 70) .prod [(.PER, 1)] [72],
  .comm (some 69) (some 71) .sum [] [73, 74],
  .comm (some 69) (some 72) .sum [] [],
  .comm (some 69) (some 72) .prod [(.LIN, 1), (.PER, 1)] [],
  .change (some 69) (some 69) .CP (.obj 76) (.str .LIN),
  .comm (some 69) (some 75) .prod [(.PER, 1)] [77],
  .comm (some 69) (some 76) .sum [] [78, 79],
  .comm (some 69) (some 77) .sum [] [],
  .comm (some 69) (some 77) .prod [(.LIN, 1), (.PER, 1)] []]

private def h1 : Heap := store ++ (c0 ++ c1)

private def c2 : Heap := [
  .comm none none .sum [(.LIN, 1)] [],
  .comm (some 82) (some 82) .prod [(.PER, 1)] [89],
  .comm (some 82) none .sum [] [84, 81],
  .change (some 82) (some 82) .CP (.obj 81) (.str .LIN),
  .change (some 82) (some 82) .CP (.obj 85) (.str .LIN),
  .comm (some 82) (some 84) .prod [(.PER, 1)] [86],
  .comm (some 82) (some 85) .sum [] [87, 88],
  .comm (some 82) (some 86) .sum [] [],
  .comm (some 82) (some 86) .prod [(.LIN, 1), (.PER, 1)] [],
  .comm (some 82) (some 81) .sum [] [90, 91],
  .comm (some 82) (some 89) .sum [] [],
  .comm (some 82) (some 89) .prod [(.LIN, 1), (.PER, 1)] [],
  .comm (some 94) (some 94) .sum [(.LIN, 1)] [],
  .change (some 94) (some 94) .CP (.obj 100) (.str .LIN),
  .comm (some 94) none .sum [] [95, 92],
  .change (some 94) (some 94) .CP (.obj 96) (.str .LIN),
  .comm (some 94) (some 95) .prod [(.PER, 1)] [97],
  .comm (some 94) (some 96) .sum [] [98, 99],
  .comm (some 94) (some 97) .sum [] [],
  .comm (some 94) (some 97) .prod [(.LIN, 1), (.PER, 1)] [],
  .comm (some 94) (some 93) .prod [(.PER, 1)] [101],
  .comm (some 94) (some 100) .sum [] [102, 103],
  .comm (some 94) (some 101) .sum [] [],
  .comm (some 94) (some 101) .prod [(.LIN, 1), (.PER, 1)] []]

private def h2 : Heap := store ++ (c0 ++ (c1 ++ c2))

private def c3 : Heap := [
  .comm none none .prod [] [115],
  .comm (some 106) (some 108) .sum [] [115],
  .comm (some 106) none .sum [] [107, 109],
  .change (some 106) (some 106) .CP (.obj 108) (.str .LIN),
  .comm (some 106) (some 107) .prod [(.PER, 1)] [105],
  .change (some 106) (some 106) .CP (.obj 110) (.str .LIN),
  .comm (some 106) (some 109) .prod [(.PER, 1)] [111],
  .comm (some 106) (some 110) .sum [] [112, 113],
  .comm (some 106) (some 111) .sum [] [],
  .comm (some 106) (some 111) .prod [(.LIN, 1), (.PER, 1)] [],
  .comm (some 106) (some 105) .sum [] [],
  .comm (some 115) (some 104) .prod [(.LIN, 1), (.PER, 1)] [],
  .comm none none .prod [(.PER, 1)] [],
  .comm (some 120) (some 121) .prod [] [118],
  .comm (some 120) (some 117) .prod [(.LIN, 1), (.PER, 1)] [],
  .comm (some 120) (some 121) .prod [(.PER, 1)] [127],
  .comm (some 120) none .sum [] [121, 122],
  .change (some 120) (some 120) .CP (.obj 117) (.str .LIN),
  .change (some 120) (some 120) .CP (.obj 123) (.str .LIN),
  .comm (some 120) (some 122) .prod [(.PER, 1)] [124],
  .comm (some 120) (some 123) .sum [] [125, 126],
  .comm (some 120) (some 124) .sum [] [],
  .comm (some 120) (some 124) .prod [(.LIN, 1), (.PER, 1)] [],
  .comm (some 120) (some 119) .sum [] [128, 129],
  .comm (some 120) (some 127) .sum [] [],
  .comm (some 120) (some 127) .prod [(.LIN, 1), (.PER, 1)] [],
  .comm (some 132) (some 133) .prod [(.PER, 1)] [],
  .comm (some 132) (some 133) .prod [(.PER, 1)] [139],
  .comm (some 132) none .sum [] [133, 134],
  .change (some 132) (some 132) .CP (.obj 130) (.str .LIN),
  .change (some 132) (some 132) .CP (.obj 135) (.str .LIN),
  .comm (some 132) (some 134) .prod [(.PER, 1)] [136],
  .comm (some 132) (some 135) .sum [] [137, 138],
  .comm (some 132) (some 136) .sum [] [],
  .comm (some 132) (some 136) .prod [(.LIN, 1), (.PER, 1)] [],
  .comm (some 132) (some 131) .sum [] [140, 141],
  .comm (some 132) (some 139) .sum [] [],
  .comm (some 132) (some 139) .prod [(.LIN, 1), (.PER, 1)] []]

private def h3 : Heap := store ++ (c0 ++ (c1 ++ (c2 ++ c3)))

private def c4 : Heap := [
  .comm none none .sum [] [143],
  .comm (some 143) (some 142) .prod [(.LIN, 1), (.PER, 1)] [],
  .comm (some 144) none .sum [] [145, 149],
  .change (some 144) (some 144) .CP (.obj 146) (.str .LIN),
  .comm (some 144) (some 145) .prod [(.PER, 1)] [147],
  .comm (some 144) (some 146) .sum [] [148, 143],
  .comm (some 144) (some 147) .sum [] [],
  .change (some 144) (some 144) .CP (.obj 150) (.str .LIN),
  .comm (some 144) (some 149) .prod [(.PER, 1)] [151],
  .comm (some 144) (some 150) .sum [] [152, 153],
  .comm (some 144) (some 151) .sum [] [],
  .comm (some 144) (some 151) .prod [(.LIN, 1), (.PER, 1)] [],
  .comm none none .sum [] [],
  .comm (some 156) (some 159) .sum [] [],
  .comm (some 156) none .sum [] [157, 161],
  .change (some 156) (some 156) .CP (.obj 158) (.str .LIN),
  .comm (some 156) (some 157) .prod [(.PER, 1)] [159],
  .comm (some 156) (some 158) .sum [] [155, 160],
  .comm (some 156) (some 159) .prod [(.LIN, 1), (.PER, 1)] [],
  .change (some 156) (some 156) .CP (.obj 162) (.str .LIN),
  .comm (some 156) (some 161) .prod [(.PER, 1)] [163],
  .comm (some 156) (some 162) .sum [] [164, 165],
  .comm (some 156) (some 163) .sum [] [],
  .comm (some 156) (some 163) .prod [(.LIN, 1), (.PER, 1)] [],
  .comm (some 169) (some 171) .sum [] [167],
  .comm (some 169) (some 166) .prod [(.LIN, 1), (.PER, 1)] [],
  .comm (some 169) (some 171) .sum [] [177, 178],
  .comm (some 169) none .sum [] [170, 172],
  .change (some 169) (some 169) .CP (.obj 171) (.str .LIN),
  .comm (some 169) (some 170) .prod [(.PER, 1)] [166],
  .change (some 169) (some 169) .CP (.obj 173) (.str .LIN),
  .comm (some 169) (some 172) .prod [(.PER, 1)] [174],
  .comm (some 169) (some 173) .sum [] [175, 176],
  .comm (some 169) (some 174) .sum [] [],
  .comm (some 169) (some 174) .prod [(.LIN, 1), (.PER, 1)] [],
  .comm (some 169) (some 168) .sum [] [],
  .comm (some 169) (some 168) .prod [(.LIN, 1), (.PER, 1)] [],
  .comm (some 181) (some 183) .sum [] [],
  .comm (some 181) (some 183) .sum [] [189, 190],
  .comm (some 181) none .sum [] [182, 184],
  .change (some 181) (some 181) .CP (.obj 183) (.str .LIN),
  .comm (some 181) (some 182) .prod [(.PER, 1)] [179],
  .change (some 181) (some 181) .CP (.obj 185) (.str .LIN),
  .comm (some 181) (some 184) .prod [(.PER, 1)] [186],
  .comm (some 181) (some 185) .sum [] [187, 188],
  .comm (some 181) (some 186) .sum [] [],
  .comm (some 181) (some 186) .prod [(.LIN, 1), (.PER, 1)] [],
  .comm (some 181) (some 180) .sum [] [],
  .comm (some 181) (some 180) .prod [(.LIN, 1), (.PER, 1)] []]

private def h4 : Heap := store ++ (c0 ++ (c1 ++ (c2 ++ (c3 ++ c4))))

private def h5 : Heap := store ++ (c0 ++ (c1 ++ (c2 ++ (c3 ++ c4))))

private def c6 : Heap := [
  .comm none none .prod [(.PER, 1)] [],
  .comm none none .prod [(.LIN, 1)] [],
  .comm (some 195) (some 198) .prod [(.PER, 1)] [],
  .comm (some 195) (some 198) .prod [(.LIN, 1), (.PER, 1)] [],
  .comm (some 195) none .sum [] [196, 200],
  .change (some 195) (some 195) .CP (.obj 197) (.str .LIN),
  .comm (some 195) (some 196) .prod [(.PER, 1)] [198],
  .comm (some 195) (some 197) .sum [] [199, 193],
  .comm (some 195) (some 198) .sum [] [],
  .change (some 195) (some 195) .CP (.obj 201) (.str .LIN),
  .comm (some 195) (some 200) .prod [(.PER, 1)] [202],
  .comm (some 195) (some 201) .sum [] [203, 204],
  .comm (some 195) (some 202) .sum [] [],
  .comm (some 195) (some 202) .prod [(.LIN, 1), (.PER, 1)] [],
  .comm (some 207) (some 210) .prod [(.LIN, 1)] [],
  .comm (some 207) (some 210) .prod [(.LIN, 1), (.PER, 1)] [],
  .comm (some 207) none .sum [] [208, 212],
  .change (some 207) (some 207) .CP (.obj 209) (.str .LIN),
  .comm (some 207) (some 208) .prod [(.PER, 1)] [210],
  .comm (some 207) (some 209) .sum [] [211, 205],
  .comm (some 207) (some 210) .sum [] [],
  .change (some 207) (some 207) .CP (.obj 213) (.str .LIN),
  .comm (some 207) (some 212) .prod [(.PER, 1)] [214],
  .comm (some 207) (some 213) .sum [] [215, 216],
  .comm (some 207) (some 214) .sum [] [],
  .comm (some 207) (some 214) .prod [(.LIN, 1), (.PER, 1)] []]

private def h6 : Heap := store ++ (c0 ++ (c1 ++ (c2 ++ (c3 ++ (c4 ++ c6)))))

private def h7 : Heap := store ++ (c0 ++ (c1 ++ (c2 ++ (c3 ++ (c4 ++ c6)))))

private def c8 : Heap := [
  .comm none none .sum [(.LIN, 1)] [],
  .comm (some 219) (some 219) .prod [(.PER, 1)] [226],
  .comm (some 219) none .sum [] [225, 218],
  .change (some 219) (some 219) .CP (.obj 221) (.str .LIN),
  .comm (some 219) (some 220) .prod [(.PER, 1)] [222],
  .comm (some 219) (some 221) .sum [] [223, 224],
  .comm (some 219) (some 222) .sum [] [],
  .comm (some 219) (some 222) .prod [(.LIN, 1), (.PER, 1)] [],
  .change (some 219) (some 219) .CP (.obj 218) (.str .LIN),
  .comm (some 219) (some 218) .sum [] [227, 228],
  .comm (some 219) (some 226) .sum [] [],
  .comm (some 219) (some 226) .prod [(.LIN, 1), (.PER, 1)] [],
  .comm (some 231) (some 231) .sum [(.LIN, 1)] [],
  .change (some 231) (some 231) .CP (.obj 237) (.str .LIN),
  .comm (some 231) none .sum [] [230, 229],
  .change (some 231) (some 231) .CP (.obj 233) (.str .LIN),
  .comm (some 231) (some 232) .prod [(.PER, 1)] [234],
  .comm (some 231) (some 233) .sum [] [235, 236],
  .comm (some 231) (some 234) .sum [] [],
  .comm (some 231) (some 234) .prod [(.LIN, 1), (.PER, 1)] [],
  .comm (some 231) (some 230) .prod [(.PER, 1)] [238],
  .comm (some 231) (some 237) .sum [] [239, 240],
  .comm (some 231) (some 238) .sum [] [],
  .comm (some 231) (some 238) .prod [(.LIN, 1), (.PER, 1)] []]

private def h8 : Heap := store ++ (c0 ++ (c1 ++ (c2 ++ (c3 ++ (c4 ++ (c6 ++ c8))))))

private def c9 : Heap := [
  .comm none none .prod [] [252],
  .comm (some 243) (some 250) .sum [] [252],
  .comm (some 243) none .sum [] [244, 249],
  .change (some 243) (some 243) .CP (.obj 245) (.str .LIN),
  .comm (some 243) (some 244) .prod [(.PER, 1)] [246],
  .comm (some 243) (some 245) .sum [] [247, 248],
  .comm (some 243) (some 246) .sum [] [],
  .comm (some 243) (some 246) .prod [(.LIN, 1), (.PER, 1)] [],
  .change (some 243) (some 243) .CP (.obj 250) (.str .LIN),
  .comm (some 243) (some 249) .prod [(.PER, 1)] [242],
  .comm (some 243) (some 242) .sum [] [],
  .comm (some 252) (some 241) .prod [(.LIN, 1), (.PER, 1)] [],
  .comm none none .prod [(.PER, 1)] [],
  .comm (some 257) (some 263) .prod [] [255],
  .comm (some 257) (some 254) .prod [(.LIN, 1), (.PER, 1)] [],
  .comm (some 257) (some 263) .prod [(.PER, 1)] [264],
  .comm (some 257) none .sum [] [258, 263],
  .change (some 257) (some 257) .CP (.obj 259) (.str .LIN),
  .comm (some 257) (some 258) .prod [(.PER, 1)] [260],
  .comm (some 257) (some 259) .sum [] [261, 262],
  .comm (some 257) (some 260) .sum [] [],
  .comm (some 257) (some 260) .prod [(.LIN, 1), (.PER, 1)] [],
  .change (some 257) (some 257) .CP (.obj 254) (.str .LIN),
  .comm (some 257) (some 256) .sum [] [265, 266],
  .comm (some 257) (some 264) .sum [] [],
  .comm (some 257) (some 264) .prod [(.LIN, 1), (.PER, 1)] [],
  .comm (some 269) (some 275) .prod [(.PER, 1)] [],
  .comm (some 269) (some 275) .prod [(.PER, 1)] [276],
  .comm (some 269) none .sum [] [270, 275],
  .change (some 269) (some 269) .CP (.obj 271) (.str .LIN),
  .comm (some 269) (some 270) .prod [(.PER, 1)] [272],
  .comm (some 269) (some 271) .sum [] [273, 274],
  .comm (some 269) (some 272) .sum [] [],
  .comm (some 269) (some 272) .prod [(.LIN, 1), (.PER, 1)] [],
  .change (some 269) (some 269) .CP (.obj 267) (.str .LIN),
  .comm (some 269) (some 268) .sum [] [277, 278],
  .comm (some 269) (some 276) .sum [] [],
  .comm (some 269) (some 276) .prod [(.LIN, 1), (.PER, 1)] []]

private def h9 : Heap := store ++ (c0 ++ (c1 ++ (c2 ++ (c3 ++ (c4 ++ (c6 ++ (c8 ++ c9)))))))

private def c10 : Heap := [
  .comm none none .sum [] [280],
  .comm (some 280) (some 279) .prod [(.LIN, 1), (.PER, 1)] [],
  .comm (some 281) none .sum [] [282, 287],
  .change (some 281) (some 281) .CP (.obj 283) (.str .LIN),
  .comm (some 281) (some 282) .prod [(.PER, 1)] [284],
  .comm (some 281) (some 283) .sum [] [285, 286],
  .comm (some 281) (some 284) .sum [] [],
  .comm (some 281) (some 284) .prod [(.LIN, 1), (.PER, 1)] [],
  .change (some 281) (some 281) .CP (.obj 288) (.str .LIN),
  .comm (some 281) (some 287) .prod [(.PER, 1)] [289],
  .comm (some 281) (some 288) .sum [] [290, 280],
  .comm (some 281) (some 289) .sum [] [],
  .comm none none .sum [] [],
  .comm (some 293) (some 301) .sum [] [],
  .comm (some 293) none .sum [] [294, 299],
  .change (some 293) (some 293) .CP (.obj 295) (.str .LIN),
  .comm (some 293) (some 294) .prod [(.PER, 1)] [296],
  .comm (some 293) (some 295) .sum [] [297, 298],
  .comm (some 293) (some 296) .sum [] [],
  .comm (some 293) (some 296) .prod [(.LIN, 1), (.PER, 1)] [],
  .change (some 293) (some 293) .CP (.obj 300) (.str .LIN),
  .comm (some 293) (some 299) .prod [(.PER, 1)] [301],
  .comm (some 293) (some 300) .sum [] [292, 302],
  .comm (some 293) (some 301) .prod [(.LIN, 1), (.PER, 1)] [],
  .comm (some 306) (some 313) .sum [] [304],
  .comm (some 306) (some 303) .prod [(.LIN, 1), (.PER, 1)] [],
  .comm (some 306) (some 313) .sum [] [314, 315],
  .comm (some 306) none .sum [] [307, 312],
  .change (some 306) (some 306) .CP (.obj 308) (.str .LIN),
  .comm (some 306) (some 307) .prod [(.PER, 1)] [309],
  .comm (some 306) (some 308) .sum [] [310, 311],
  .comm (some 306) (some 309) .sum [] [],
  .comm (some 306) (some 309) .prod [(.LIN, 1), (.PER, 1)] [],
  .change (some 306) (some 306) .CP (.obj 313) (.str .LIN),
  .comm (some 306) (some 312) .prod [(.PER, 1)] [303],
  .comm (some 306) (some 305) .sum [] [],
  .comm (some 306) (some 305) .prod [(.LIN, 1), (.PER, 1)] [],
  .comm (some 318) (some 325) .sum [] [],
  .comm (some 318) (some 325) .sum [] [326, 327],
  .comm (some 318) none .sum [] [319, 324],
  .change (some 318) (some 318) .CP (.obj 320) (.str .LIN),
  .comm (some 318) (some 319) .prod [(.PER, 1)] [321],
  .comm (some 318) (some 320) .sum [] [322, 323],
  .comm (some 318) (some 321) .sum [] [],
  .comm (some 318) (some 321) .prod [(.LIN, 1), (.PER, 1)] [],
  .change (some 318) (some 318) .CP (.obj 325) (.str .LIN),
  .comm (some 318) (some 324) .prod [(.PER, 1)] [316],
  .comm (some 318) (some 317) .sum [] [],
  .comm (some 318) (some 317) .prod [(.LIN, 1), (.PER, 1)] []]

private def h10 : Heap := store ++ (c0 ++ (c1 ++ (c2 ++ (c3 ++ (c4 ++ (c6 ++ (c8 ++ (c9 ++ c10))))))))

private def h11 : Heap := store ++ (c0 ++ (c1 ++ (c2 ++ (c3 ++ (c4 ++ (c6 ++ (c8 ++ (c9 ++ c10))))))))

private def c12 : Heap := [
  .comm none none .prod [(.PER, 1)] [],
  .comm none none .prod [(.LIN, 1)] [],
  .comm (some 332) (some 340) .prod [(.PER, 1)] [],
  .comm (some 332) (some 340) .prod [(.LIN, 1), (.PER, 1)] [],
  .comm (some 332) none .sum [] [333, 338],
  .change (some 332) (some 332) .CP (.obj 334) (.str .LIN),
  .comm (some 332) (some 333) .prod [(.PER, 1)] [335],
  .comm (some 332) (some 334) .sum [] [336, 337],
  .comm (some 332) (some 335) .sum [] [],
  .comm (some 332) (some 335) .prod [(.LIN, 1), (.PER, 1)] [],
  .change (some 332) (some 332) .CP (.obj 339) (.str .LIN),
  .comm (some 332) (some 338) .prod [(.PER, 1)] [340],
  .comm (some 332) (some 339) .sum [] [341, 330],
  .comm (some 332) (some 340) .sum [] [],
  .comm (some 344) (some 352) .prod [(.LIN, 1)] [],
  .comm (some 344) (some 352) .prod [(.LIN, 1), (.PER, 1)] [],
  .comm (some 344) none .sum [] [345, 350],
  .change (some 344) (some 344) .CP (.obj 346) (.str .LIN),
  .comm (some 344) (some 345) .prod [(.PER, 1)] [347],
  .comm (some 344) (some 346) .sum [] [348, 349],
  .comm (some 344) (some 347) .sum [] [],
  .comm (some 344) (some 347) .prod [(.LIN, 1), (.PER, 1)] [],
  .change (some 344) (some 344) .CP (.obj 351) (.str .LIN),
  .comm (some 344) (some 350) .prod [(.PER, 1)] [352],
  .comm (some 344) (some 351) .sum [] [353, 342],
  .comm (some 344) (some 352) .sum [] []]

private def h12 : Heap := store ++ (c0 ++ (c1 ++ (c2 ++ (c3 ++ (c4 ++ (c6 ++ (c8 ++ (c9 ++ (c10 ++ c12)))))))))

private def h13 : Heap := store ++ (c0 ++ (c1 ++ (c2 ++ (c3 ++ (c4 ++ (c6 ++ (c8 ++ (c9 ++ (c10 ++ c12)))))))))

private def d1 : Heap := [
  .comm none none .sum [] [27],
  .change (some 27) (some 26) .CP (.obj 34) (.str .LIN),
  .comm (some 28) none .sum [] [29, 27],
  .change (some 28) (some 28) .CP (.obj 30) (.str .LIN),
  .comm (some 28) (some 29) .prod [(.PER, 1)] [31],
  .comm (some 28) (some 30) .sum [] [32, 33],
  .comm (some 28) (some 31) .sum [] [],
  .comm (some 28) (some 31) .prod [(.LIN, 1), (.PER, 1)] [],
  .comm (some 27) (some 27) .prod [(.PER, 1)] [37],
  .comm (some 28) (some 34) .sum [] [37],
  .comm (some 28) (some 35) .sum [] [],
  .comm (some 27) (some 34) .prod [(.LIN, 1), (.PER, 1)] [],
  .comm none none .sum [] [39],
  .change (some 39) (some 38) .CP (.obj 46) (.str .LIN),
  .comm (some 40) none .sum [] [39, 41],
  .change (some 40) (some 40) .CP (.obj 42) (.str .LIN),
  .comm (some 40) (some 41) .prod [(.PER, 1)] [43],
  .comm (some 40) (some 42) .sum [] [44, 45],
  .comm (some 40) (some 43) .sum [] [],
  .comm (some 40) (some 43) .prod [(.LIN, 1), (.PER, 1)] [],
  .comm (some 39) (some 39) .prod [(.PER, 1)] [49],
  .comm (some 40) (some 46) .sum [] [49],
  .comm (some 40) (some 47) .sum [] [],
  .comm (some 39) (some 46) .prod [(.LIN, 1), (.PER, 1)] [],
  .comm (some 50) none .sum [] [51],
  .change (some 51) none .CP (.obj 52) (.str .LIN),
  .comm (some 51) (some 51) .prod [(.PER, 2), (.LIN, 1)] [],
  .comm (some 50) (some 52) .prod [(.LIN, 1), (.PER, 1)] [],
  .comm (some 54) none .sum [] [55, 60],
  .change (some 54) (some 54) .CP (.obj 56) (.str .LIN),
  .comm (some 54) (some 55) .prod [(.PER, 1)] [57],
  .comm (some 54) (some 56) .sum [] [58, 59],
  .comm (some 54) (some 57) .sum [] [],
  .comm (some 54) (some 57) .prod [(.LIN, 1), (.PER, 1)] [],
  .change (some 54) (some 54) .CP (.obj 61) (.str .LIN),
  .comm (some 54) (some 60) .prod [(.PER, 1)] [62],
  .comm (some 54) (some 61) .sum [] [63, 64],
  .comm (some 54) (some 62) .sum [] [],
  .comm (some 54) (some 62) .prod [(.LIN, 1), (.PER, 1)] [],
  .comm (some 65) none .sum [] [66],
  .change (some 65) (some 65) .CP (.obj 67) (.str .LIN),
  .comm (some 65) (some 66) .prod [(.PER, 1)] [68],
  .comm (some 65) (some 67) .prod [(.LIN, 1), (.PER, 1)] [],
  .comm (some 69) none .sum [] [70, 75],
  .change (some 69) (some 69) .CP (.obj 71) (.str .LIN),
  .comm (some 69) (some 70) .prod [(.PER, 1)] [72],
  .comm (some 69) (some 71) .sum [] [73, 74],
  .comm (some 69) (some 72) .sum [] [],
  .comm (some 69) (some 72) .prod [(.LIN, 1), (.PER, 1)] [],
  .change (some 69) (some 69) .CP (.obj 76) (.str .LIN),
  .comm (some 69) (some 75) .prod [(.PER, 1)] [77],
  .comm (some 69) (some 76) .sum [] [78, 79],
  .comm (some 69) (some 77) .sum [] [],
  .comm (some 69) (some 77) .prod [(.LIN, 1), (.PER, 1)] []]

private def d2 : Heap := [
  .comm none none .sum [(.LIN, 1)] [],
  .comm (some 82) (some 82) .prod [(.PER, 1)] [91],
  .comm (some 82) none .sum [] [84, 81],
  .change (some 82) (some 82) .CP (.obj 81) (.str .LIN),
  .change (some 82) (some 82) .CP (.obj 85) (.str .LIN),
  .comm (some 82) (some 84) .prod [(.PER, 1)] [88],
  .comm (some 82) (some 85) .sum [] [88],
  .comm (some 82) (some 86) .sum [] [],
  .comm (some 82) (some 85) .prod [(.LIN, 1), (.PER, 1)] [],
  .comm (some 82) (some 81) .sum [] [91],
  .comm (some 82) (some 89) .sum [] [],
  .comm (some 82) (some 81) .prod [(.LIN, 1), (.PER, 1)] [],
  .comm (some 94) (some 94) .sum [(.LIN, 1)] [],
  .change (some 94) (some 94) .CP (.obj 100) (.str .LIN),
  .comm (some 94) none .sum [(.LIN, 1)] [95],
  .change (some 94) (some 94) .CP (.obj 96) (.str .LIN),
  .comm (some 94) (some 95) .prod [(.PER, 1)] [99],
  .comm (some 94) (some 96) .sum [] [99],
  .comm (some 94) (some 97) .sum [] [],
  .comm (some 94) (some 96) .prod [(.LIN, 1), (.PER, 1)] [],
  .comm (some 94) (some 93) .prod [(.PER, 1)] [101],
  .comm (some 94) (some 100) .sum [] [102, 103],
  .comm (some 94) (some 101) .sum [] [],
  .comm (some 94) (some 101) .prod [(.LIN, 1), (.PER, 1)] []]

private def d3 : Heap := [
  .comm none none .prod [] [115],
  .comm (some 106) (some 108) .sum [] [115],
  .comm (some 106) none .sum [] [107, 109],
  .change (some 106) (some 106) .CP (.obj 108) (.str .LIN),
  .comm (some 106) (some 107) .prod [(.PER, 1)] [105],
  .change (some 106) (some 106) .CP (.obj 110) (.str .LIN),
  .comm (some 106) (some 109) .prod [(.PER, 1)] [111],
  .comm (some 106) (some 110) .sum [] [112, 113],
  .comm (some 106) (some 111) .sum [] [],
  .comm (some 106) (some 111) .prod [(.LIN, 1), (.PER, 1)] [],
  .comm (some 106) (some 105) .sum [] [],
  .comm (some 115) (some 104) .prod [(.LIN, 1), (.PER, 1)] [],
  .comm none none .prod [(.PER, 1)] [],
  .comm (some 120) (some 121) .prod [(.LIN, 1), (.PER, 1)] [],
  .comm (some 120) (some 117) .prod [(.LIN, 1), (.PER, 1)] [],
  .comm (some 120) (some 121) .prod [(.PER, 1)] [127],
  .comm (some 120) none .sum [] [121, 122],
  .change (some 120) (some 120) .CP (.obj 117) (.str .LIN),
  .change (some 120) (some 120) .CP (.obj 123) (.str .LIN),
  .comm (some 120) (some 122) .prod [(.PER, 1)] [126],
  .comm (some 120) (some 123) .sum [] [126],
  .comm (some 120) (some 124) .sum [] [],
  .comm (some 120) (some 123) .prod [(.LIN, 1), (.PER, 1)] [],
  .comm (some 120) (some 119) .sum [] [128, 129],
  .comm (some 120) (some 127) .sum [] [],
  .comm (some 120) (some 127) .prod [(.LIN, 1), (.PER, 1)] [],
  .comm (some 132) (some 133) .prod [(.PER, 1)] [],
  .comm (some 132) (some 133) .prod [(.PER, 1)] [139],
  .comm (some 132) none .sum [] [133, 134],
  .change (some 132) (some 132) .CP (.str .PER) (.str .LIN),
  .change (some 132) (some 132) .CP (.obj 135) (.str .LIN),
  .comm (some 132) (some 134) .prod [(.PER, 1)] [138],
  .comm (some 132) (some 135) .sum [] [138],
  .comm (some 132) (some 136) .sum [] [],
  .comm (some 132) (some 135) .prod [(.LIN, 1), (.PER, 1)] [],
  .comm (some 132) (some 131) .sum [] [140, 141],
  .comm (some 132) (some 139) .sum [] [],
  .comm (some 132) (some 139) .prod [(.LIN, 1), (.PER, 1)] []]

private def d4 : Heap := [
  .comm none none .sum [] [143],
  .comm (some 143) (some 142) .prod [(.LIN, 1), (.PER, 1)] [],
  .comm (some 144) none .sum [] [145, 149],
  .change (some 144) (some 144) .CP (.obj 146) (.str .LIN),
  .comm (some 144) (some 145) .prod [(.PER, 1)] [147],
  .comm (some 144) (some 146) .sum [] [148, 143],
  .comm (some 144) (some 147) .sum [] [],
  .change (some 144) (some 144) .CP (.obj 150) (.str .LIN),
  .comm (some 144) (some 149) .prod [(.PER, 1)] [151],
  .comm (some 144) (some 150) .sum [] [152, 153],
  .comm (some 144) (some 151) .sum [] [],
  .comm (some 144) (some 151) .prod [(.LIN, 1), (.PER, 1)] [],
  .comm none none .sum [] [],
  .comm (some 156) (some 159) .sum [] [],
  .comm (some 156) none .sum [] [157, 161],
  .change (some 156) (some 156) .CP (.obj 158) (.str .LIN),
  .comm (some 156) (some 157) .prod [(.PER, 1)] [159],
  .comm (some 156) (some 158) .sum [] [155, 160],
  .comm (some 156) (some 159) .prod [(.LIN, 1), (.PER, 1)] [],
  .change (some 156) (some 156) .CP (.obj 162) (.str .LIN),
  .comm (some 156) (some 161) .prod [(.PER, 1)] [163],
  .comm (some 156) (some 162) .sum [] [164, 165],
  .comm (some 156) (some 163) .sum [] [],
  .comm (some 156) (some 163) .prod [(.LIN, 1), (.PER, 1)] [],
  .comm (some 169) (some 171) .sum [] [167],
  .comm (some 169) (some 171) .prod [(.LIN, 1), (.PER, 1)] [],
  .comm (some 169) (some 171) .sum [] [177, 178],
  .comm (some 169) none .sum [] [170, 172],
  .change (some 169) (some 169) .CP (.obj 171) (.str .LIN),
  .comm (some 169) (some 170) .prod [(.PER, 1)] [167],
  .change (some 169) (some 169) .CP (.obj 173) (.str .LIN),
  .comm (some 169) (some 172) .prod [(.PER, 1)] [176],
  .comm (some 169) (some 173) .sum [] [176],
  .comm (some 169) (some 174) .sum [] [],
  .comm (some 169) (some 173) .prod [(.LIN, 1), (.PER, 1)] [],
  .comm (some 169) (some 168) .sum [] [],
  .comm (some 169) (some 168) .prod [(.LIN, 1), (.PER, 1)] [],
  .comm (some 181) (some 183) .sum [] [],
  .comm (some 181) (some 183) .sum [] [189, 190],
  .comm (some 181) none .sum [] [182, 184],
  .change (some 181) (some 181) .CP (.obj 183) (.str .LIN),
  .comm (some 181) (some 182) .prod [(.PER, 1)] [179],
  .change (some 181) (some 181) .CP (.obj 185) (.str .LIN),
  .comm (some 181) (some 184) .prod [(.PER, 1)] [188],
  .comm (some 181) (some 185) .sum [] [188],
  .comm (some 181) (some 186) .sum [] [],
  .comm (some 181) (some 185) .prod [(.LIN, 1), (.PER, 1)] [],
  .comm (some 181) (some 180) .sum [] [],
  .comm (some 181) (some 180) .prod [(.LIN, 1), (.PER, 1)] []]

private def d6 : Heap := [
  .comm none none .prod [(.PER, 1)] [],
  .comm none none .prod [(.LIN, 1)] [],
  .comm (some 195) (some 198) .prod [(.PER, 1)] [],
  .comm (some 195) (some 198) .prod [(.LIN, 1), (.PER, 1)] [],
  .comm (some 195) none .sum [] [196, 200],
  .change (some 195) (some 195) .CP (.obj 197) (.str .LIN),
  .comm (some 195) (some 196) .prod [(.PER, 2)] [],
  .comm (some 195) (some 197) .sum [(.PER, 1)] [],
  .comm (some 195) (some 198) .sum [] [],
  .change (some 195) (some 195) .CP (.obj 201) (.str .LIN),
  .comm (some 195) (some 200) .prod [(.PER, 1)] [204],
  .comm (some 195) (some 201) .sum [] [204],
  .comm (some 195) (some 202) .sum [] [],
  .comm (some 195) (some 201) .prod [(.LIN, 1), (.PER, 1)] [],
  .comm (some 207) (some 210) .prod [(.LIN, 1)] [],
  .comm (some 207) (some 210) .prod [(.LIN, 1), (.PER, 1)] [],
  .comm (some 207) none .sum [] [208, 212],
  .change (some 207) (some 207) .CP (.obj 209) (.str .LIN),
  .comm (some 207) (some 208) .prod [(.PER, 1), (.LIN, 1)] [],
  .comm (some 207) (some 209) .sum [(.LIN, 1)] [],
  .comm (some 207) (some 210) .sum [] [],
  .change (some 207) (some 207) .CP (.obj 213) (.str .LIN),
  .comm (some 207) (some 212) .prod [(.PER, 1)] [216],
  .comm (some 207) (some 213) .sum [] [216],
  .comm (some 207) (some 214) .sum [] [],
  .comm (some 207) (some 213) .prod [(.LIN, 1), (.PER, 1)] []]

private def d8 : Heap := [
  .comm none none .sum [(.LIN, 1)] [],
  .comm (some 219) (some 219) .prod [(.PER, 2), (.LIN, 1)] [],
  .comm (some 219) none .sum [] [225, 218],
  .change (some 219) (some 219) .CP (.obj 221) (.str .LIN),
  .comm (some 219) (some 220) .prod [(.PER, 1)] [222],
  .comm (some 219) (some 221) .sum [] [223, 224],
  .comm (some 219) (some 222) .sum [] [],
  .comm (some 219) (some 222) .prod [(.LIN, 1), (.PER, 1)] [],
  .change (some 219) (some 219) .CP (.obj 218) (.str .LIN),
  .comm (some 219) (some 218) .sum [] [228],
  .comm (some 219) (some 226) .sum [] [],
  .comm (some 219) (some 218) .prod [(.LIN, 1), (.PER, 1)] [],
  .comm (some 231) (some 231) .sum [(.LIN, 1)] [],
  .change (some 231) (some 231) .CP (.obj 237) (.str .LIN),
  .comm (some 231) none .sum [(.LIN, 1)] [230],
  .change (some 231) (some 231) .CP (.obj 233) (.str .LIN),
  .comm (some 231) (some 232) .prod [(.PER, 1)] [234],
  .comm (some 231) (some 233) .sum [] [235, 236],
  .comm (some 231) (some 234) .sum [] [],
  .comm (some 231) (some 234) .prod [(.LIN, 1), (.PER, 1)] [],
  .comm (some 231) (some 230) .prod [(.PER, 1)] [240],
  .comm (some 231) (some 237) .sum [] [240],
  .comm (some 231) (some 238) .sum [] [],
  .comm (some 231) (some 237) .prod [(.LIN, 1), (.PER, 1)] []]

private def d9 : Heap := [
  .comm none none .prod [] [252],
  .comm (some 243) (some 250) .sum [] [252],
  .comm (some 243) none .sum [] [244, 249],
  .change (some 243) (some 243) .CP (.obj 245) (.str .LIN),
  .comm (some 243) (some 244) .prod [(.PER, 1)] [246],
  .comm (some 243) (some 245) .sum [] [247, 248],
  .comm (some 243) (some 246) .sum [] [],
  .comm (some 243) (some 246) .prod [(.LIN, 1), (.PER, 1)] [],
  .change (some 243) (some 243) .CP (.obj 250) (.str .LIN),
  .comm (some 243) (some 249) .prod [(.PER, 1)] [242],
  .comm (some 243) (some 242) .sum [] [],
  .comm (some 252) (some 241) .prod [(.LIN, 1), (.PER, 1)] [],
  .comm none none .prod [(.PER, 1)] [],
  .comm (some 257) (some 263) .prod [(.LIN, 1), (.PER, 1)] [],
  .comm (some 257) (some 254) .prod [(.LIN, 1), (.PER, 1)] [],
  .comm (some 257) (some 263) .prod [(.PER, 1)] [264],
  .comm (some 257) none .sum [] [258, 263],
  .change (some 257) (some 257) .CP (.obj 259) (.str .LIN),
  .comm (some 257) (some 258) .prod [(.PER, 1)] [262],
  .comm (some 257) (some 259) .sum [] [262],
  .comm (some 257) (some 260) .sum [] [],
  .comm (some 257) (some 259) .prod [(.LIN, 1), (.PER, 1)] [],
  .change (some 257) (some 257) .CP (.obj 254) (.str .LIN),
  .comm (some 257) (some 256) .sum [] [265, 266],
  .comm (some 257) (some 264) .sum [] [],
  .comm (some 257) (some 264) .prod [(.LIN, 1), (.PER, 1)] [],
  .comm (some 269) (some 275) .prod [(.PER, 1)] [],
  .comm (some 269) (some 275) .prod [(.PER, 1)] [276],
  .comm (some 269) none .sum [] [270, 275],
  .change (some 269) (some 269) .CP (.obj 271) (.str .LIN),
  .comm (some 269) (some 270) .prod [(.PER, 1)] [274],
  .comm (some 269) (some 271) .sum [] [274],
  .comm (some 269) (some 272) .sum [] [],
  .comm (some 269) (some 271) .prod [(.LIN, 1), (.PER, 1)] [],
  .change (some 269) (some 269) .CP (.str .PER) (.str .LIN),
  .comm (some 269) (some 268) .sum [] [277, 278],
  .comm (some 269) (some 276) .sum [] [],
  .comm (some 269) (some 276) .prod [(.LIN, 1), (.PER, 1)] []]

private def d10 : Heap := [
  .comm none none .sum [] [280],
  .comm (some 280) (some 279) .prod [(.LIN, 1), (.PER, 1)] [],
  .comm (some 281) none .sum [] [282, 287],
  .change (some 281) (some 281) .CP (.obj 283) (.str .LIN),
  .comm (some 281) (some 282) .prod [(.PER, 1)] [284],
  .comm (some 281) (some 283) .sum [] [285, 286],
  .comm (some 281) (some 284) .sum [] [],
  .comm (some 281) (some 284) .prod [(.LIN, 1), (.PER, 1)] [],
  .change (some 281) (some 281) .CP (.obj 288) (.str .LIN),
  .comm (some 281) (some 287) .prod [(.PER, 1)] [289],
  .comm (some 281) (some 288) .sum [] [290, 280],
  .comm (some 281) (some 289) .sum [] [],
  .comm none none .sum [] [],
  .comm (some 293) (some 301) .sum [] [],
  .comm (some 293) none .sum [] [294, 299],
  .change (some 293) (some 293) .CP (.obj 295) (.str .LIN),
  .comm (some 293) (some 294) .prod [(.PER, 1)] [296],
  .comm (some 293) (some 295) .sum [] [297, 298],
  .comm (some 293) (some 296) .sum [] [],
  .comm (some 293) (some 296) .prod [(.LIN, 1), (.PER, 1)] [],
  .change (some 293) (some 293) .CP (.obj 300) (.str .LIN),
  .comm (some 293) (some 299) .prod [(.PER, 1)] [301],
  .comm (some 293) (some 300) .sum [] [292, 302],
  .comm (some 293) (some 301) .prod [(.LIN, 1), (.PER, 1)] [],
  .comm (some 306) (some 313) .sum [] [304],
  .comm (some 306) (some 313) .prod [(.LIN, 1), (.PER, 1)] [],
  .comm (some 306) (some 313) .sum [] [314, 315],
  .comm (some 306) none .sum [] [307, 312],
  .change (some 306) (some 306) .CP (.obj 308) (.str .LIN),
  .comm (some 306) (some 307) .prod [(.PER, 1)] [311],
  .comm (some 306) (some 308) .sum [] [311],
  .comm (some 306) (some 309) .sum [] [],
  .comm (some 306) (some 308) .prod [(.LIN, 1), (.PER, 1)] [],
  .change (some 306) (some 306) .CP (.obj 313) (.str .LIN),
  .comm (some 306) (some 312) .prod [(.PER, 1)] [304],
  .comm (some 306) (some 305) .sum [] [],
  .comm (some 306) (some 305) .prod [(.LIN, 1), (.PER, 1)] [],
  .comm (some 318) (some 325) .sum [] [],
  .comm (some 318) (some 325) .sum [] [326, 327],
  .comm (some 318) none .sum [] [319, 324],
  .change (some 318) (some 318) .CP (.obj 320) (.str .LIN),
  .comm (some 318) (some 319) .prod [(.PER, 1)] [323],
  .comm (some 318) (some 320) .sum [] [323],
  .comm (some 318) (some 321) .sum [] [],
  .comm (some 318) (some 320) .prod [(.LIN, 1), (.PER, 1)] [],
  .change (some 318) (some 318) .CP (.obj 325) (.str .LIN),
  .comm (some 318) (some 324) .prod [(.PER, 1)] [316],
  .comm (some 318) (some 317) .sum [] [],
  .comm (some 318) (some 317) .prod [(.LIN, 1), (.PER, 1)] []]

private def d12 : Heap := [
  .comm none none .prod [(.PER, 1)] [],
  .comm none none .prod [(.LIN, 1)] [],
  .comm (some 332) (some 340) .prod [(.PER, 1)] [],
  .comm (some 332) (some 340) .prod [(.LIN, 1), (.PER, 1)] [],
  .comm (some 332) none .sum [] [333, 338],
  .change (some 332) (some 332) .CP (.obj 334) (.str .LIN),
  .comm (some 332) (some 333) .prod [(.PER, 1)] [337],
  .comm (some 332) (some 334) .sum [] [337],
  .comm (some 332) (some 335) .sum [] [],
  .comm (some 332) (some 334) .prod [(.LIN, 1), (.PER, 1)] [],
  .change (some 332) (some 332) .CP (.obj 339) (.str .LIN),
  .comm (some 332) (some 338) .prod [(.PER, 2)] [],
  .comm (some 332) (some 339) .sum [(.PER, 1)] [],
  .comm (some 332) (some 340) .sum [] [],
  .comm (some 344) (some 352) .prod [(.LIN, 1)] [],
  .comm (some 344) (some 352) .prod [(.LIN, 1), (.PER, 1)] [],
  .comm (some 344) none .sum [] [345, 350],
  .change (some 344) (some 344) .CP (.obj 346) (.str .LIN),
  .comm (some 344) (some 345) .prod [(.PER, 1)] [349],
  .comm (some 344) (some 346) .sum [] [349],
  .comm (some 344) (some 347) .sum [] [],
  .comm (some 344) (some 346) .prod [(.LIN, 1), (.PER, 1)] [],
  .change (some 344) (some 344) .CP (.obj 351) (.str .LIN),
  .comm (some 344) (some 350) .prod [(.PER, 1), (.LIN, 1)] [],
  .comm (some 344) (some 351) .sum [(.LIN, 1)] [],
  .comm (some 344) (some 352) .sum [] []]

private def r1 : Heap := store ++ (c0 ++ (d1 ++ (c2 ++ (c3 ++ (c4 ++ (c6 ++ (c8 ++ (c9 ++ (c10 ++ c12)))))))))

private def r2 : Heap := store ++ (c0 ++ (d1 ++ (d2 ++ (c3 ++ (c4 ++ (c6 ++ (c8 ++ (c9 ++ (c10 ++ c12)))))))))

private def r3 : Heap := store ++ (c0 ++ (d1 ++ (d2 ++ (d3 ++ (c4 ++ (c6 ++ (c8 ++ (c9 ++ (c10 ++ c12)))))))))

private def r4 : Heap := store ++ (c0 ++ (d1 ++ (d2 ++ (d3 ++ (d4 ++ (c6 ++ (c8 ++ (c9 ++ (c10 ++ c12)))))))))

private def r6 : Heap := store ++ (c0 ++ (d1 ++ (d2 ++ (d3 ++ (d4 ++ (d6 ++ (c8 ++ (c9 ++ (c10 ++ c12)))))))))

private def r8 : Heap := store ++ (c0 ++ (d1 ++ (d2 ++ (d3 ++ (d4 ++ (d6 ++ (d8 ++ (c9 ++ (c10 ++ c12)))))))))

private def r9 : Heap := store ++ (c0 ++ (d1 ++ (d2 ++ (d3 ++ (d4 ++ (d6 ++ (d8 ++ (d9 ++ (c10 ++ c12)))))))))

private def r10 : Heap := store ++ (c0 ++ (d1 ++ (d2 ++ (d3 ++ (d4 ++ (d6 ++ (d8 ++ (d9 ++ (d10 ++ c12)))))))))

/-- The objects at the end. -/
def last : Heap := store ++ (c0 ++ (d1 ++ (d2 ++ (d3 ++ (d4 ++ (d6 ++ (d8 ++ (d9 ++ (d10 ++ d12)))))))))

private theorem t : traverse .default 0 store = (.ok [0, 1, 2, 3, 5, 6, 24, 7, 8, 9, 11, 12, 25], h0) := ends_iff (by decide +kernel)

private theorem s0 : expandNode .default someOrders [.remove_some_term] 0 h0 = (.ok [50], h1) := ends_iff (by decide +kernel)

private theorem s1 : expandNode .default someOrders [.remove_some_term] 1 h1 = (.ok [81, 92], h2) := ends_iff (by decide +kernel)

private theorem s2 : expandNode .default someOrders [.remove_some_term] 2 h2 = (.ok [117, 130], h3) := ends_iff (by decide +kernel)

private theorem s3 : expandNode .default someOrders [.remove_some_term] 3 h3 = (.ok [166, 179], h4) := ends_iff (by decide +kernel)

private theorem s4 : expandNode .default someOrders [.remove_some_term] 5 h4 = (.ok [], h5) := ends_iff (by decide +kernel)

private theorem s5 : expandNode .default someOrders [.remove_some_term] 6 h5 = (.ok [193, 205], h6) := ends_iff (by decide +kernel)

private theorem s6 : expandNode .default someOrders [.remove_some_term] 24 h6 = (.ok [], h7) := ends_iff (by decide +kernel)

private theorem s7 : expandNode .default someOrders [.remove_some_term] 7 h7 = (.ok [218, 229], h8) := ends_iff (by decide +kernel)

private theorem s8 : expandNode .default someOrders [.remove_some_term] 8 h8 = (.ok [254, 267], h9) := ends_iff (by decide +kernel)

private theorem s9 : expandNode .default someOrders [.remove_some_term] 9 h9 = (.ok [303, 316], h10) := ends_iff (by decide +kernel)

private theorem s10 : expandNode .default someOrders [.remove_some_term] 11 h10 = (.ok [], h11) := ends_iff (by decide +kernel)

private theorem s11 : expandNode .default someOrders [.remove_some_term] 12 h11 = (.ok [330, 342], h12) := ends_iff (by decide +kernel)

private theorem s12 : expandNode .default someOrders [.remove_some_term] 25 h12 = (.ok [], h13) := ends_iff (by decide +kernel)

private theorem q1 : collect (rootOf .default) [50] h13 = (.ok [51], r1) := ends_iff (by decide +kernel)

private theorem q2 : collect (rootOf .default) [81, 92] r1 = (.ok [82, 94], r2) := ends_iff (by decide +kernel)

private theorem q3 : collect (rootOf .default) [117, 130] r2 = (.ok [120, 132], r3) := ends_iff (by decide +kernel)

private theorem q4 : collect (rootOf .default) [166, 179] r3 = (.ok [169, 181], r4) := ends_iff (by decide +kernel)

private theorem q6 : collect (rootOf .default) [193, 205] r4 = (.ok [195, 207], r6) := ends_iff (by decide +kernel)

private theorem q8 : collect (rootOf .default) [218, 229] r6 = (.ok [219, 231], r8) := ends_iff (by decide +kernel)

private theorem q9 : collect (rootOf .default) [254, 267] r8 = (.ok [257, 269], r9) := ends_iff (by decide +kernel)

private theorem q10 : collect (rootOf .default) [303, 316] r9 = (.ok [306, 318], r10) := ends_iff (by decide +kernel)

private theorem q12 : collect (rootOf .default) [330, 342] r10 = (.ok [332, 344], last) := ends_iff (by decide +kernel)

private theorem roots : collect (rootOf .default) [50, 81, 92, 117, 130, 166, 179, 193, 205, 218, 229, 254, 267, 303, 316, 330, 342] h13 = (.ok [51, 82, 94, 120, 132, 169, 181, 195, 207, 219, 231, 257, 269, 306, 318, 332, 344], last) := by
  have e := collect_append q1 (collect_append q2 (collect_append q3 (collect_append q4 (collect_append q6 (collect_append q8 (collect_append q9 (collect_append q10 q12)))))))
  simpa only [List.cons_append, List.nil_append] using e

private theorem uniq : uniqueM [51, 82, 94, 120, 132, 169, 181, 195, 207, 219, 231, 257, 269, 306, 318, 332, 344] last = (.ok [51, 82, 94, 120, 132, 169, 181, 195, 219], last) := ends_iff (by decide +kernel)

/-- What `expand` does. -/
theorem expand_store : Objects.expand .default someOrders [.remove_some_term] 0 store = (.ok [51, 82, 94, 120, 132, 169, 181, 195, 219], last) := by
  have h1 : collect (expandNode .default someOrders [.remove_some_term]) [0, 1, 2, 3, 5, 6, 24, 7, 8, 9, 11, 12, 25] h0 = (.ok [[50], [81, 92], [117, 130], [166, 179], [], [193, 205], [], [218, 229], [254, 267], [303, 316], [], [330, 342], []], h13) :=
    collect_of s0 (collect_of s1 (collect_of s2 (collect_of s3 (collect_of s4 (collect_of s5 (collect_of s6 (collect_of s7 (collect_of s8 (collect_of s9 (collect_of s10 (collect_of s11 (collect_of s12 collect_nil))))))))))))
  have h2 : collect (rootOf .default) (List.flatten [[50], [81, 92], [117, 130], [166, 179], [], [193, 205], [], [218, 229], [254, 267], [303, 316], [], [330, 342], []]) h13 = (.ok [51, 82, 94, 120, 132, 169, 181, 195, 207, 219, 231, 257, 269, 306, 318, 332, 344], last) := by
    simpa only [List.flatten_cons, List.flatten_nil, List.cons_append, List.nil_append, List.append_nil] using roots
  rw [Objects.expand]
  exact (bind_ok t).trans ((bind_ok h1).trans ((bind_ok h2).trans uniq))

end HollowRun
end GPyABCD
