import Verif.Model.Scan.Scanner

/-! # What does not depend on whether scalars are evaluated -/

namespace Yary.Deferred

variable {o o' : SFlags} (he : o.extendable = o'.extendable)

include he

theorem cache_flag : cache o = cache o' := by
  funext n
  induction n with
  | zero => rfl
  | succ n ih => funext s; simp only [cache, he, ih]

theorem takeWhileLen_flag : takeWhileLen o = takeWhileLen o' := by
  funext f s
  induction s with
  | nil => simp only [takeWhileLen, he]
  | cons b t ih => simp only [takeWhileLen, cache_flag he, ih]

theorem eatWs_flag : eatWs o = eatWs o' := by
  have h : ∀ c fuel, eatWsLoop o c fuel = eatWsLoop o' c fuel := by
    intro c fuel
    induction fuel with
    | zero => rfl
    | succ fuel ih => funext a b; simp only [eatWsLoop, cache_flag he, ih]
  funext a b
  simp only [eatWs, h]

theorem tagUriUnescape_flag : tagUriUnescape o = tagUriUnescape o' := by
  have h1 : percentOctet o = percentOctet o' := by
    funext s; simp only [percentOctet, cache_flag he]
  have h2 : ∀ n, percentTrail o n = percentTrail o' n := by
    intro n
    induction n with
    | zero => rfl
    | succ n ih => funext s; simp only [percentTrail, h1, ih]
  funext s
  simp only [tagUriUnescape, h1, h2]

theorem scanTagUri_flag : scanTagUri o = scanTagUri o' := by
  have h : ∀ v b fuel, scanUriLoop o v b fuel = scanUriLoop o' v b fuel := by
    intro v b fuel
    induction fuel with
    | zero => rfl
    | succ fuel ih => funext s; simp only [scanUriLoop, cache_flag he, ih, UriSt.percent, tagUriUnescape_flag he]
  funext a b
  simp only [scanTagUri, h]

theorem scanTagHandle_flag : scanTagHandle o = scanTagHandle o' := by
  funext c
  simp only [scanTagHandle, cache_flag he, takeWhileLen_flag he]

theorem scanNodeTag_flag : scanNodeTag o = scanNodeTag o' := by
  funext c
  simp only [scanNodeTag, scanVerbatim, cache_flag he, scanTagHandle_flag he, scanTagUri_flag he]

theorem scanAnchor_flag : scanAnchor o = scanAnchor o' := by
  funext a c
  simp only [scanAnchor, cache_flag he, takeWhileLen_flag he]

theorem directiveToken_flag : Scan.directiveToken o = Scan.directiveToken o' := by
  funext c
  simp only [Scan.directiveToken, scanDirective, scanVersionNumber, scanTagDirective, cache_flag he, scanTagHandle_flag he, scanTagUri_flag he,
    takeWhileLen_flag he, eatWs_flag he]

theorem prepare_flag : Scan.prepare o = Scan.prepare o' := by
  simp only [Scan.prepare, Scan.eatWhitespace, eatWs_flag he]

end Yary.Deferred
