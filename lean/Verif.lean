import Verif.Util.U64
import Verif.Util.SMap
import Verif.Account.Lemmas
import Verif.Account.Props
import Verif.KV.Props
import Verif.KV.IterProps
import Verif.KV.TableOrder
import Verif.Codec.Props
import Verif.TxCache.Props
import Verif.Transfer.Props
import Verif.Fuel.Props
import Verif.Block.Props
import Verif.Block.Index
import Verif.Utxo.Props
import Verif.Utxo.Conds
import Verif.Vote.Props
import Verif.Vote.Top
import Verif.Delegate.Props
import Verif.Merkle.Partial
import Verif.Chain.Props
import Verif.SigCache.Props
import Verif.Containers.Props
import Verif.Finality.Props
import Verif.AppAcc.Props
import Verif.AppAcc.Pay
import Verif.Dex.Props
import Verif.Gov.Props
import Verif.Asset.Props
import Verif.Price.Props
import Verif.Cdp.Safe
import Verif.Cdp.Lock
import Verif.Wasm.Props
import Verif.Wire.Props
import Verif.Wire.StoreProps
import Verif.Intake.Props
import Verif.TxBase.Props
import Verif.Mine.Props
import Verif.Abi.Props
import Verif.DexOp.Props
import Verif.Net.Props
import Verif.Text.Props
import Verif.Files.Props
import Verif.Wallet.Props
import Verif.Hash.Props
import Verif.Host.Props
import Verif.Sync.Props
import Verif.Sync.Relay
import Verif.Addr.Props
import Verif.Arith.Props
import Verif.Ip.Props
import Verif.Vm.Props
import Verif.Intake.OperatorProps
import Verif.Intake.MixedProps
import Verif.Text.Base32Props
import Verif.Peer.Props
import Verif.Peer.PingProps
import Verif.Peer.LocalProps
import Verif.Addr.SaveProps
