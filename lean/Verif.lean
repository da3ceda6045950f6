import Verif.Common.GType
import Verif.Wrapping.Props
import Verif.FieldTypes.Props
import Verif.CheckTypes.Props
import Verif.OperationLimits.Props
import Verif.Complexity.Props
import Verif.EntityCache.Props
import Verif.Retry.Props
import Verif.MutationOrder.Props
import Verif.HeaderRules.Props
import Verif.Documents.Props
import Verif.InFlight.Props
import Verif.RateLimit.Props
import Verif.RollingLog.Props
import Verif.GraphRef.Props
import Verif.EnvString.Props
import Verif.Csrf.Props
import Verif.Accept.Props
import Verif.Warming.Props
import Verif.Pool.Props
import Verif.DefaultMerge.Props
import Verif.PackedIds.Props
import Verif.Collect.Props
import Verif.ModifierGroups.Props
import Verif.Partition.Props
import Verif.IdSets.Props
import Verif.SchemaPath.Props
import Verif.PatchPaths.Props
import Verif.SchemaDiff.Props
import Verif.OpChecks.Props
import Verif.Compose.Props
import Verif.ResponseKeys.Props
import Verif.Coercion.Props
import Verif.OpText.Props
import Verif.Schedule.Props
import Verif.Subscription.Props
import Verif.Dedup.Props
import Verif.NullProp.Props
import Verif.RespAuth.Props
import Verif.Literals.Props
import Verif.PossibleTypes.Props
import Verif.SubgraphVars.Props
import Verif.SubgraphQuery.Props
import Verif.QueryMods.Props
import Verif.Cycles.Props
import Verif.Flac.Props
import Verif.Updater.Props
import Verif.SteinerInput.Props
import Verif.DeepMerge.Props
import Verif.QueryGraph.Props
import Verif.SpaceBuilder.Props
import Verif.Entities.Props
import Verif.FieldOwners.Props
import Verif.Hidden.Props
import Verif.Contracts.Props
import Verif.Views.Props
import Verif.Injection.Props
import Verif.AutoDetect.Props
import Verif.Bind.Props
import Verif.WsServer.Props
import Verif.SchemaRules.Props
import Verif.SdlText.Props
import Verif.Leaves.Props
import Verif.LinkNames.Props
import Verif.DirectiveDefs.Props
import Verif.FieldSets.Props
import Verif.TypeChoice.Props
import Verif.Derived.Props
import Verif.Signing.Props
import Verif.StoreUrls.Props
import Verif.Cors.Props
import Verif.Templates.Props
import Verif.HttpStatus.Props
import Verif.Reload.Props
import Verif.ConfigLoad.Props
import Verif.Extensions.Props
import Verif.StreamJoin.Props
import Verif.Batches.Props
import Verif.Lint.Props
import Verif.SubDedup.Props
import Verif.ExtCache.Props
import Verif.FileLog.Props
import Verif.ContractEngines.Props
import Verif.UniqueSub.Props
import Verif.AccessToken.Props
